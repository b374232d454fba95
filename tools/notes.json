{
 "C02": "False as documented (gcd(-4,6)<0, C02_gcd_sign_violated); exact condition and the real sign rule proved in C02_gcd_sign_partial.",
 "C07": "Proved for all non-empty iterables with est_len != 0; the empty iterable raises AttributeError and est_len=0 ZeroDivisionError (both proved). A bar without a length and without est_len raises NameError when it is made (C07_progressbar_missing_est_len).",
 "C12": "Proved for objects without logging (any state, count, exception). False with logging: the convergents before the zero are appended although the counter is not advanced (C12_failed_iteration_logging_violated; exactly what is left is C12_logging_exact).",
 "C14": "False: get_p_q returns the previous convergent (C14_get_p_q_violated). C14_get_p_q_partial proves that it is always convergent n-1.",
 "C15": "Proved for n >= 1, including every logged intermediate result. False for n = 0, where a logging object reports 1 (C15_logging_violated).",
 "C17": "Proved for non-logging objects, non-negative counts and sampling steps >= 5, over all call histories including raising calls. The guard for small steps is built but not raised, and the code itself uses step 1, so samples are mislabelled (C17_index_in_step_violated).",
 "C21": "Proved for len(a)=len(b)+1, omitted b, and ValueError; for equal lengths the documented value is wrong (C21_equal_length_violated) and the value really computed is proved.",
 "C27": "False of the code: __setitem__ deletes the entry of an earlier, lower accuracy that both keys share (witness: 3.14999999 written at accuracy 2, then 3.14159265 written at accuracy 5). The partial theorem covers all states in which the two keys share no earlier entry. Also required: the key written, cut to the current accuracy, equals no cut of the other key.",
 "C28": "False of the code: __delitem__ of an entry at the current accuracy only reads it (line 54), for every table without a matching older entry. The partial theorem covers entries of earlier accuracies and absent keys. For the former the key must have no other entry at another accuracy.",
 "C29": "False of the code: get/setdefault/pop are the plain dict methods and use the raw key. Also proved: a numeric key stored with setdefault, as the builder does, is never visible to t[k] or k in t. The partial theorem covers short string keys. The keys must have at most accuracy+1 characters and no entry of an earlier accuracy.",
 "C33": "False of the code in general: numeric keys (which the builder stores) make the script raise AttributeError, and with an accuracy history offending entries survive. The partial theorem covers tables filled by t[k]=v at one accuracy. The table must hold the 'parameters' key.",
 "C35": "Proved for the plain and indexed classes; false for interlaces of the sparse class (len_factor uses binom(n,k) once, not once per interlaced polynomial): C35_length_sparse_violated. C35_sparse_count gives the exact number; the estimate is right for single sparse polynomials.",
 "C36": "False as stated: the quadratic branch divides by 2*poly[0], so it tests the reversed polynomial (C36_quadratic), counts negative roots, and factoring stops at an interior zero. Proved for at most two adjacent non-zero coefficients; what the test answers for every polynomial is C36_exact.",
 "C44": "False as stated: an LHS whose value is an integer becomes NaN when the integer part is all there is (2/1, C44_canonical_violated). Proved for all other values, together with reducedness, idempotence and the polynomial identity.",
 "C45": "Rational function part proved in full (exactly the constant functions, at every reachable state). The ULCD part is false (C45_ulcd_degenerate_violated).",
 "C47": "False of the code: denominators are not compared, 1/(x+1) and 1/(x+2) are reported equivalent (C47_equivalence_violated). Proved when the reduced denominators agree.",
 "C50": "ULCD: proved for all sequences (C50_ulcd). Rational functions: false right after reinit_params, which leaves the old parameters (C50_params_violated); proved for all sequences not ending in reinit_params.",
 "C53": "Same resulting table and outcome: proved. The saving is false: the blacklist of integers is subtracted from a set of (index, function) pairs, so no combination is ever skipped (C53_validation_violated, C53_same_work_violated). Hypotheses: the function filter is not empty and the stored entries can be read as a blacklist.",
 "C54": "Exact in both directions for any number type that has to_eng_string. With mpf, the type the code imports, every search with a finite first LHS raises AttributeError (C54_clicks_violated).",
 "C55": "False: build_hashtable stores with setdefault under the number, find_clicks looks under the text, so after any sequence of builds nothing is ever found (C55_matches_found_violated). The partial theorem covers entries stored under the text.",
 "C56": "Proved for number types with to_eng_string (which clicks survive, order, failure, termination). With mpf the refinement raises (C56_refine_violated).",
 "C57": "False when the cut-off integer parts and the compared keys are ordered differently: the adjusted LHS is off by almost 1 (C57_identity_violated). The partial theorem gives the exact distance in all cases.",
 "C58": "Proved for every interruption point, except that an interrupt inside the bare except around add_int becomes a RuntimeError and ends main (C58_cancel_violated).",
 "C60": "False: the absolute value around r.real - round(r.real) is missing, a root 1.6 drops the click (C60_roots_violated). The partial theorem gives the exact condition for all root lists; all true positive integer roots are caught (C60_no_zero_numerators).",
 "C61": "Proved when exactly one list is really given. False when only blacklist= is passed (the default whitelist counts as given, ValueError) and when construction, outside the try, fails. Hypotheses: the list is not empty, construction succeeds, and no KeyboardInterrupt happens in an estimation.",
 "C62": "Stored entries are found and the class is right for all states except: requesting the plain class while a subclass is in use has no effect; special parameters of the sparse class are never updated (C62_settings_violated).",
 "C64": "Proved for all result lists and depths >= 1 for the 20 post-processing functions with a correct LaTeX form (C66) and LHS objects with a LaTeX expression (C65). depth=0 raises IndexError (C64_depth_zero_violated).",
 "C65": "ULCD proved for all states and target names that are one LaTeX symbol. Rational functions proved up to degree 9; false when the value is 0 or an integer shift only (IndexError, C65_integer_violated) and for degree >= 10, where the exponent needs braces (C65_degree_violated).",
 "C66": "Proved for 20 of 24 functions and all sides. The two square-root templates are malformed (ValueError, C66_sqrt_violated), exp loses the left hand side (C66_exp_violated), ln exchanges the sides without inverting (C66_ln_violated).",
 "C68": "Proved for finite Decimals and functions 0-11, 20, 21, and for positive Decimals also 22, 23. False: sin..1/cot raise NameError for every input, ln of a negative Decimal raises (C68_evaluable_violated); with mpf numbers most functions raise (C68_mpf_violated).",
 "C78": "Proved for the plain and the indexed class (equal collections under every number, any join order). Sparse class: same entries always, same multiplicities when no coefficient range contains 0; with 0 in a range the join repeats entries (C78_sparse_violated: 0,1,0 is enumerated in both parts). The 'parameters' key is outside the comparison.",
 "C69": "Proved for hashtable names without dots when the files of this hashtable in the directory are versions whose numbers have the same number of digits. False otherwise: versions are ordered as texts, so with versions 9 and 10 generate chooses the existing version 10 and use chooses 9, and h_v1.pkl.bak counts as a version (C69_versions_violated).",
 "C71": "Proved for paths in lower case. Capital letters in a path are lost, so another file is used (C71_case_violated). Hypotheses: no white space at either end, and the path is not none, true or false.",
 "C72": "Proved for configurations without lhs_type, with list options that hold (nested) lists of integers, and when the program still chooses the same hashtable file. False: a given lhs_type is written as a dictionary of classes and the saved file is rejected (C72_lhs_type_violated), true inside a list is written as True and rejected (C72_true_violated), after generate the saved file names a new version (C72_generate_violated). A hashtable name with a percent sign is accepted, but saving the configuration raises ValueError at the end of the run (C72_percent_violated). The file theorem needs files, loaded and saved, without percent signs.",
 "C73": "Proved: options left out are None. The documented defaults are never used (C73_defaults_violated).",
 "C75": "Proved for the constants without index, with generate/expand, and with use when the stored hashtable was made for the configured constant. False: zeta raises TypeError and sets the precision to the index (C75_zeta_violated), feig and percolation raise NameError (C75_undefined_violated), use searches for the constant of the stored hashtable (C75_use_violated).",
 "C79": "Proved for Decimals in [0,1) printed without exponent with at least n digits. False: 0.5 and 0.50 differ at accuracy 2, small numbers are printed with an exponent so that equal digits compare different (C79_small_violated) and different digits equal (C79_exponent_violated); mpf numbers have no to_eng_string (C79_mpf_violated). C79_close_partial: numbers in [0,1) that compare equal differ by less than max(10^-n, 10^-6).",
 "C82": "Proved for names that neither begin nor end (before .csv) with one of the characters c, s, v and dot. False otherwise: strip removes characters, results.csv becomes result (C82_name_violated).",
 "C83": "use proved; generate proved for hashtable names without dots and versions of equal length (see C69). False for expand: the loaded file itself is replaced in every successful run (C83_expand_violated).",
 "C86": "Proved for all generators called with a precision or with nothing where no index is needed. False when a generator with an index gets only the index: it is taken as the precision and TypeError is raised (C86_index_violated). Indexed generators are covered with and without a precision (given as first argument); precisions must be positive.",
 "C89": "Proved when there are at least six sampling indices with step >= 5 and the sampled convergents exist, differ and have distances that do not vanish as floats. False otherwise: 1-1/(1-...) gets the type None (C89_documented_none_violated), a continued fraction with every other convergent undefined raises ZeroDivisionError (C89_documented_raises_violated). The cutoff must be positive and no b_i used zero (unless zeros are not avoided).",
 "C90": "Proved when the coefficient is at most the base, with the number of iterations given by the formula's inequality base <= acc*base^r. False in general: the coefficient is ignored (C90_accuracy_violated: error 0.19 at accuracy 0.01). With mpf the formula raises AttributeError, so no search ever ends with a result (C90_mpf_violated). Objects without logging, no zero b_i used, convergent at the chosen depth defined.",
 "C91": "Proved for both LHS classes and all runs (also cancelled ones) except that the two sides are only known to agree to the accuracy or to differ by almost exactly 1 (numbers just above and below an integer look alike without their integer part). False without that: C91_results_violated, a search returning 4.2349 for a continued fraction with the value 5.2348. Rational functions under the hypothesis that no enumerated value is an integer or infinite.",
 "C93": "Proved for ULCD with the code's own evaluators and convergence tests (C93_code), and for every LHS class whose test of equivalent clicks compares values. False for rational functions (C93_rf_violated): is_equiv ignores the denominators (C47), and in a concrete search the LHS which equals the continued fraction is dropped in favour of another one which agrees in the digits compared. Hypotheses: the integer part is truncated, the search is not cancelled, negating a changes only the sign of the values (proved for the code's own evaluators in C93_code).",
 "C94": "Exact: the polynomials with three coefficients are read back, in order; all others are dropped silently (C94_polys_violated) and rows with tuples, as export_to_csv writes them, are never read (C94_tuples_violated).",
 "C95": "Proved for files whose rows have at least four cells. A blank line or a short row raises IndexError and everything is lost (C95_rows_violated).",
 "C96": "Only the first character and the compilation are checked (proved); any expression after '0 or ' is accepted (C96_formula_violated).",
 "C97": "Proved for the file type 'cont_frac', for answers (C97_analysis_partial) and that there are answers (C97_ends). With the default file type the function raises NameError for every file (C97_default_violated).",
 "C98": "Proved for paths without spaces. A path with a space is given to main.py as several arguments (C98_commands_violated).",
 "C99": "Proved if both readings of the clock agree and the directory is new. A search that ends in the same minute as another one loses all its results (C99_same_minute_violated), and so does one during whose last lines the minute changes (C99_clock_violated).",
 "C100": "Proved for a new output file: it holds all entries, and errors change nothing. An existing output file is overwritten although 'Aborting' is printed; running the script twice doubles every entry (C100_join_violated). Hypotheses for success: all tables load, are well-formed and have the same accuracy, there is at least one, and the directory of the output exists.",
 "C101": "Proved if the estimator returns for every dropped click. For 1 + 1/(0 + 1/(1 + 1/(0 + ...))) the filter ends with ZeroDivisionError only because printing is requested (C101_print_violated).",
 "C102": "Proved for gen_iterations, is_convergence_fast and estimate_approach_type_and_params. Until one of them is called, get_result shows the old result and add_iterations continues with the old polynomials (C102_stale_violated); a flat list, which the constructor accepts, raises TypeError (C102_flat_violated).",
 "C103": "Proved after gen_iterations. Without a generated result it does not raise but compares the target with 1 (C103_fresh_violated). Hypotheses: the convergent is defined, no zero b_i used, with logging at least one iteration.",
 "C104": "Proved for files without percent signs. configparser replaces them (line 34 uses the default interpolation): an unknown option 'note = 50% done' makes the load fail (C104_percent_violated), and a reference %(base)s works only if both options are in the same section (C104_section_violated).",
 "C10": "Proved for everything but the approach type: get_approach_type_and_params() returns 'undefined' after reinitialize and None for a fresh object (C10_approach_violated).",
 "C80": "Proved when no b_1..b_n is zero (or zeros are not avoided), including NaN for undefined convergents. With a zero b_i the method raises and leaves the object part-way, not at zero iterations (C80_zero_b_violated).",
 "C87": "Recognition is proved for step >= 5, cutoff > 0, at least six samples, sampled convergents defined, no zero b_i used, and factors in a band hi <= 1.5 lo (lo > 1.1 for exp, hi <= 1.1 for poly2sympoly). That exp/super_exp is never reported without a decrease by more than 1.1 is proved for one window with step >= 5, and for the stored type when the first window is not answered 'fast'. False for steps below 5, which the guard fails to reject: a continued fraction whose convergents repeat forever is answered 'exp' with iters_step=1 (C87_small_step_violated). With the default arguments the method's own later windows do the same: a continued fraction with b = -1 and 75 interlaced constants a, whose convergents repeat forever, is stored as 'exp' (C87_default_violated). Open: convergence not within such a band.",
 "C105": "Reading is proved for files of the old format for e, pi and euler_masch with any functions of POSTPROC_FUNCS, the equations for pi with all functions listed and the conditions of C64 (results with a zero b_i are left out). Every file written by the present export_to_csv raises ValueError (C105_export_violated), every file with a result for feig or percolation raises TypeError (C105_indexed_violated). Cells that are not tuples of tuples of ints are not treated.",
 "C106": "Proved for a single window of six convergents (iters < initial_cutoff + iters_step; with find_poly_parameter whether the logarithms raise, the numbers of the linear fit are not modelled). With more windows, as with the default arguments, every continued fraction without a zero b_i raises AttributeError, as mpf numbers have no is_zero (C106_default_violated). Convergents with denominator zero are not filtered: 1 - 1/(1 - 1/(1 - ...)), which has no limit, is 'poly2sympoly' (C106_nan_violated).",
 "C107": "Proved for a configuration in the current directory without lhs_type, with list options holding lists of integers and a table path without capital letters (as for C72). With lhs_type all written files are rejected (C107_lhs_type_violated). For a configuration given as dir/name.ini the program ends with FileNotFoundError, as it looks for dir inside the new directory (C107_directory_violated); for an absolute path the parts are written beside the original and the new directory stays empty (C107_absolute_violated).",
 "C108": "Proved for hashtable_precision >= 8 in all runs and unchanged ab_polys_type, special parameters and hashtable_num_of_iterations; failing runs in between allowed. With a precision of at most 7 the key 'parameters' is cut off when stored, and every later expand ends with an exception (C108_short_violated; the default is 8). expand ignores hashtable_num_of_iterations (C108_iterations_violated). Changes of the polynomial class: C62.",
 "C109": "Proved for all runs in which pickle.dump does not raise. main.py:113 empties the file before it writes: if dump raises, the stored table is lost and later runs raise (C109_dump_violated).",
 "C111": "Complete classification of the kept pairs without a zero b: if deg b < 2 deg a, the convergents tend to a limit or to infinity faster than every exponential rate; if deg b = 2 deg a, with leading coefficients la, lb, they tend to a limit or to infinity exponentially iff la^2 + 4 lb > 0, and never faster. So the claim is true, up to limits at infinity, iff that discriminant is positive or deg b < 2 deg a; and true, with the filter exact, if all a_n and b_n (n >= 1) are positive. It fails for a_n = 2, b_n = -1 (C111_slow_violated, discriminant 0) and for a_n = 2n - 4, b_n = 2n - 1 (C111_divergent_violated, convergents tend to infinity).",
 "C114": "Proved for irrational limits whose absolute values have fractional parts above 10^-6. For a rational limit the comparison of cut off digits may fail for ever: 1/(3 - 2/(3 - 2/(3 - ...))) against 1/2 is dropped for every number of iterations, accuracy and number of digits (C114_rational_violated). Smaller fractional parts are printed with an exponent (C79_exponent_violated), and mpf numbers cannot be printed at all (C56_refine_violated). C130_margin treats rational limits that keep a distance from the numbers with n digits.",
 "C115": "Proved, except that process_and_compare.find_linear_fitting raises IndexError for every trace that is not longer than the initial cutoff, 500 by default (C115_short_violated). linregress is only assumed to return a best fit; its last three results are not modelled.",
 "C116": "Proved for exponentially converging fractions (C116_exponential, with the formula for rho) and, for positive terms, for the others (C116_positive). The claim fails for 1 + 2000/(1 + ...), which converges exponentially but is rejected because rho > 16/17 (C116_slow_violated), and for fractions without a limit: 9 - 21/(9 - ...) is accepted with the default arguments, 3 - 3/(3 - ...) with step 6 for arbitrarily large cutoffs (C116_divergent_violated). Fractions tending to infinity exponentially are rejected (C116_infinite). Interlaced polynomials are not treated.",
 "C117": "Proved for exact results (C117_exponential, C117_positive; fractions tending to infinity never get an exponential type, C117_infinite); poly2sympoly is only proved under the assumption that the distances stay positive as floats. Without it the claim fails: with floats that underflow, 1 + 2000/(1 + ...) makes the method raise ValueError for every large enough cutoff (C117_underflow_violated), because math.log gets a distance that became 0.0. Rounding of the results to the working precision is not modelled: with a fixed precision the distances vanish for large cutoffs and the method starts over with smaller ones.",
 "C118": "Proved except that an exact division by zero is not always reported: with terms of both signs, cancellation after a rounding gives a tiny number instead of zero. For a_n = -31+18n-n^2, b_n = 43-14n and depth 4 the exact evaluation divides by zero, but with mp.dps = 50 (169 bits) a number above 10^49 in absolute value is returned (C118_cancellation_violated). The refinement is proved here for a constant number of iterations, one click and positive terms, with a given LHS value; C120 has lists of clicks, terms of any sign and rounded ULCD values.",
 "C121": "Proved: a successful construction or redefinition makes its precision the working one until another call names a precision; raising calls change nothing; reset_precision always restores the constructor's precision; generate and expand runs of the program end with 50 digits. False: the precision is shared by all objects (C121_shared_violated), reset_precision ignores redefine_settings because self.prec is never updated (C121_redefined_violated), and use runs work with the 150 digits set at import instead of DECIMAL_PREC (C121_use_violated).",
 "C123": "Proved for join_hashtables, fix_hashtable, distribute_run and run_distributed_configs for all command lines, for main.py with at most one argument. False for main.py with more arguments: it ignores all but the first and starts a search (C123_main_violated); together with C98 a configuration path with a space runs another configuration.",
 "C126": "Proved for all generators and first matrices. False: avoid_zero_b=True has no effect with a generator of the caller, as only the default generator looks at it; a zero numerator is evaluated without ZeroB (C126_zero_b_violated).",
 "C127": "Proved for files whose options begin at the margin and whose comments are lines of their own. False: an indented option is silently taken for a part of the text before it (C127_indent_violated), and a comment after a text is part of the text (C127_inline_violated; the inline comment changes the name of the hashtable file). C127_reload_partial is C72 for the texts of files, with the restrictions of C72.",
 "C129": "Proved for missing and rejected files, unknown constants, and missing hashtable_precision, ab_polys_type, a_coeffs_range and b_coeffs_range (given that the constructor, redefine_settings and build_hashtable raise for None). False for the options of the three refinements: they are looked at after the table has been stored and the clicks have been found, and then '%d' % None raises TypeError and nothing is written (C129_late_violated; C129_unfinished and C129_third: no such run ever writes results, unless the last refinement is cancelled).",
 "C130": "Proved, for number types with ln and to_eng_string, when the bound on the number of iterations is at least what the accuracy needs, no b_i used is zero, the convergent used is defined and fractional parts are above 10^-6. The coefficient may have any size, it only enters the error. A smaller bound on the iterations is not noticed: a true identity is dropped and a wrong one kept (C130_bound_violated). With mpf every evaluation raises (C90_mpf_violated).",
 "C132": "plot_errors of process_and_compare.py: proved for all errors (C132_plot, C132_raises, C132_line). gen_errors_for_nips.py: proved if all errors up to the boundary are above 10^-100. The boundary is applied after the invisible errors are dropped, so the picture can show iterations beyond it (C132_window_violated); with the default boundaries the last error is never drawn (C132_default_violated). Logarithms are exact, linregress is only assumed to return a best fit.",
 "C133": "Proved for runs with different tables (names without dots and versions), or that only use the same table, whose two readings of the clock agree (C133_runs_partial), in particular for the parts written by distribute_run (C133_parts_partial); there a run ends normally with its results or raises. Of several searches that end in the same minute at most one ends normally (C133_minute_violated) and the results of the others are lost (C133_lost_violated); two runs that generate the same table can store only one (C133_same_table_violated); a run whose clock changes the minute replaces the results of another (C133_clock_violated); the race on 'results' loses results (C133_race_violated). An access to a file (reading, emptying, writing its content, making a directory) is one step; stored tables are read at once.",
 "C134": "Proved for the configurations of C133_parts_partial with operation generate, for executions in which all parts end normally and a directory whose .pkl files are exactly the stored tables (C134_workflow_partial; same entries for every class, equally often for the plain and the indexed class and for the sparse class without zeros, see C78_sparse_violated). join_hashtables does not notice that the table of a part is missing (C134_missing_violated) and joins every .pkl file, so that older tables in the directory repeat entries (C134_again_violated). The value under 'parameters' is outside the comparison; pickle is a function whose round trip is C30, a full disk is not considered.",
 "C135": "Proved with binary rounding to nearest for fractions that have an exact value, and the functions x, x**2 to x**5 and sqrt with mpf numbers (C135_keys_partial; the other functions raise exceptions with mpf), or all but the trigonometric functions with Decimals (C135_decimal_partial). Near integers modulo 1 matters: a fraction with the exact value 4 is stored under a key above 1 - 10^(-50) (C135_integer_violated). A fraction without a value, as a denominator is zero, can be stored all the same (C135_cancellation_violated). The precision that is enough depends on the enumeration and is not computed.",
 "C136": "Proved for uninterrupted searches with the integer part removed and LHS classes whose test of equivalence compares the values (ULCD; C136_code with the code's own functions). That every result passes all tests holds for rational functions as well (C136_sound), but there a wider search can lose a right result to a wrong one with another denominator (C136_wider_violated).",
 "C138": "Found: proved for uninterrupted searches with the integer part removed, LHS classes whose test of equivalence compares the values (ULCD; C138_code with the code's own functions), fractions estimated as exponential, and explicit margins; for irrational values small enough errors exist (C138_errors). The digits after the point of the absolute values have to agree. The table has to have texts as keys: a search in a table as build_hashtable makes it reports nothing (C138_built_violated). The converse (C138_true) holds for both LHS classes.",
 "C140": "Proved for first_filtering_precision in ULCD searches with the code's own functions, and for all three precisions if the number of iterations found necessary does not depend on the precision. If it grows with the precision, as the code intends (line 141 of basic_representation_types.py; with mpf numbers that line raises), a larger precision can add a result: the smaller one stops iterating too early (C140_violated). For rational functions the results pass all tests of the search with fewer digits (C140_tests), but may be dropped as equivalent to others (C136).",
 "C142": "Proved: a run depends on the options of the table, the search and the filters only by passing each to its own step, steps that are skipped leave their options unused, and 20 of the 23 options matter. False: is_test and validate_hashtable_extend_no_replication are never used, hashtable_num_of_iterations has no effect when a table is expanded (C142_unused_violated), and i never decides what is searched (C142_index_violated).",
 "C143": "Proved for the filters and for the refinement with trunc_integer (the default), with the same or fewer digits. False without trunc_integer: the left hand side is adjusted by an integer that can take it across a power of ten, and the same refinement then drops the result (C143_whole_violated).",
 "C144": "Proved for each two of the filters, and for refinement with the filters by speed and by integer roots. False for refinement and the filter for unique parameters: refinement makes left hand sides that differ by an integer equal, so a result can be there twice if the filter is applied only before it (C144_refine_unique_violated). With the filter by type, which writes the convergence information, this is proved for the refinement with a constant number of iterations; the other refinement is documented to come after that filter.",
 "C145": "False: with an empty range the table is built without an exception and nothing is added (C145_empty_violated); config_apery_extend_hashtable.ini has such a range. Proved: without empty ranges there is something to enumerate, before the filters, and the estimated length is positive.",
 "C146": "False: the filter for unique parameters keeps an identity and the same one multiplied by 2 (C146_unique_violated); an estimation with fewer than six pairs of samples compares the distances with a fixed number and depends on the factor (C146_estimate_violated). Proved for objects without logging: the value is multiplied by c, in ContFrac and in the table, with the same exceptions; is_convergence_fast gives the same answer for all arguments; estimate_approach_type_and_params gives the same type and base, and |c| times the coefficient, if its first estimation has six pairs and no small distance is rounded to zero.",
 "C147": "Proved for the plain and the indexed class, and for the sparse class if its polynomials have one length and no range contains 0. False for the sparse class with zeros: the coefficients 0, 1 and 1, 0 at two of three places both give the polynomial n (C147_sparse_violated); tuples with the same terms then still have the same polynomials. For all three classes the table holds each continued fraction at most once with each function after one build (C147_table); a second build with a longer range of coefficients stores it again with a leading zero (C147_two_builds_violated)."
}
#!/usr/bin/env python3
"""Regenerates /verif/properties.jsonl (one JSON object per line)."""
import json, os
P = []
def p(title, statement, quantifier, why, *anchors):
    P.append(dict(id='C%02d' % (len(P)+1), title=title, statement=statement, quantifier=quantifier,
                  why_tests_cant=why, anchors=list(anchors)))

# ---------------------------------------------------------------- utils
p('gcd computes a greatest common divisor',
  'MathOperations.gcd(a, b) terminates for every pair of integers, returns a common divisor of a and b, and every common divisor of a and b divides the returned value.',
  'all pairs of Python integers of any size and sign', 'tests try four pairs; termination and greatest-ness range over all integers',
  'utils.py:MathOperations.gcd')
p('gcd sign convention',
  'As documented, unless b == 0 the value returned by MathOperations.gcd(a, b) has the same sign as b.',
  'all pairs of Python integers', 'the sign depends on argument order in a way sampled pairs do not reveal', 'utils.py:MathOperations.gcd')
p('polynomial substitution',
  'MathOperations.subs_in_polynom(coeffs, x) is the value at x of the polynomial coeffs[0]+coeffs[1]*x+..., and is unaffected by trailing zero coefficients.',
  'all coefficient lists (any length) and all points of any commutative ring', 'unbounded degree and arguments', 'utils.py:MathOperations.subs_in_polynom')
p('grouper partitions without loss',
  'grouper(iterable, n, fill) yields chunks of exactly n elements whose concatenation is the iterable followed by fewer than n fill values.',
  'all finite iterables and all chunk sizes n >= 1', 'every length/size remainder combination', 'utils.py:grouper')
p('stopwatch intervals telescope',
  'For every history of start_measure / measure_time calls on a MeasureRuntime that begins with start_measure, each measure_time returns the time elapsed since the previous start/measure call, get_last_measured_time repeats the last returned interval, a second start_measure changes nothing, and the intervals measured since the start add up to the elapsed total.',
  'all histories of calls and all clock readings', 'unbounded call histories', 'utils.py:MeasureRuntime')
p('seconds to days/hours/minutes/seconds',
  'The progress-bar time conversion returns (d, h, m, s) with 0<=s<60, 0<=m<60, 0<=h<24 whose total is exactly the rounded number of seconds.',
  'all integers (rounded second counts)', 'all magnitudes', 'utils.py:ProgressBar._secs_to_days_hrs_mins_secs')
p('progress bar is transparent',
  'Iterating a ProgressBar yields exactly the elements of the wrapped iterable, in order (paired with their index when enumerate=True), then stops.',
  'all finite iterables, all clock behaviours, all option settings', 'all lengths (including empty) and all timings', 'utils.py:ProgressBar.__next__')
# ---------------------------------------------------------------- continued fractions
p('convergent value',
  'After ContFrac(a, b).gen_iterations(n) the result equals the finite continued fraction a_0 + b_1/(a_1 + b_2/(... + b_n/a_n)), where a_i, b_i are the (interlaced) polynomials evaluated at i, whenever that nested fraction is defined and (unless avoid_zero_b=False) no b_1..b_n is zero; with logging for n >= 1.',
  'all interlaced integer polynomial coefficient lists and all n', 'unbounded depth and coefficients', 'cont_fracs.py:ContFrac.iteration_algorithm', 'cont_fracs.py:ContFrac.finalize_iterations', 'basic_representation_types.py:add_iterations')
p('iterations compose',
  'gen_iterations(n) followed by any sequence of add_iterations calls with non-negative counts leaves the object in the same state as one gen_iterations call with the total count.',
  'all coefficient lists, all splits of the iteration count, both logging modes', 'all ways to split the work', 'basic_representation_types.py:BasicRecursiveConstRepresenter.add_iterations')
p('history independence of gen_iterations',
  'Whatever sequence of calls (including failing ones) was made on a ContFrac object, reinitialize(a, b) followed by gen_iterations(n) gives the same observable state as a fresh ContFrac(a, b) after gen_iterations(n).',
  'all histories of API calls on one object, all a, b, n', 'unbounded histories; reuse of one instance is the hot path of the enumeration', 'cont_fracs.py:ContFrac.reinitialize', 'basic_representation_types.py:gen_iterations')
p('truncation is always reported',
  'With avoid_zero_b=True, iterating n steps raises ZeroB(i) exactly for the first i in 1..n with b_i == 0 and succeeds when there is none; with avoid_zero_b=False ZeroB is never raised.',
  'all coefficient lists and all n', 'the zero may be arbitrarily deep', 'cont_fracs.py:ContFrac._default_promo_mat_gen')
p('a failed iteration leaves the object unchanged',
  'If add_iterations raises ZeroB, the object (executed-iteration count, convergents, result) is as it was before the call, so the caller can go on using it.',
  'all objects, histories and failing calls', 'the crash point (index of the zero) is arbitrary', 'basic_representation_types.py:add_iterations')
p('determinant identity and NaN results',
  'Convergents satisfy p_n q_{n-1} - p_{n-1} q_n = (-1)^(n-1) b_1...b_n; hence with non-zero b the result is NaN exactly when q_n = 0 and never NaN at two consecutive depths (objects without logging).',
  'all coefficient lists and all depths', 'algebraic identity over unbounded depth', 'cont_fracs.py:ContFrac.iteration_algorithm', 'cont_fracs.py:ContFrac.finalize_iterations')
p('get_p_q returns the latest convergent',
  'As documented, get_p_q() returns the numerator and denominator of the latest partial continued fraction, i.e. p/q equals get_result().',
  'all coefficient lists and iteration counts', 'for all depths', 'cont_fracs.py:ContFrac.get_p_q')
p('logging does not change the result',
  'For every n, get_result() after n iterations is the same with logging=True and logging=False, and with logging the i-th logged value is the i-th convergent.',
  'all coefficient lists and iteration counts', 'all depths including 0', 'basic_representation_types.py:add_iterations', 'cont_fracs.py:iteration_algorithm')
p('meaning of is_convergence_fast',
  'is_convergence_fast() returns True exactly when at every sampled depth both the even and the odd differences of consecutive convergents shrink by a factor larger than 17/16, and leaves the object at zero iterations, if iters_step >= 5 and (unless avoid_zero_b=False) no b_i that is used is zero.',
  'all coefficient lists and sampling parameters with iters_step >= 6', 'quantifies over all continued fractions', 'cont_fracs.py:ContFrac.is_convergence_fast')
p('iteration index stays in step with the state',
  'At all times the executed-iterations counter n and the stored state agree: the stored state is the n-th convergent pair. The convergence estimators, which guard iters_step < 6 with an error, never break this.',
  'all call histories of gen_iterations/add_iterations/estimators', 'all histories and parameters', 'basic_representation_types.py:add_iterations', 'cont_fracs.py:is_convergence_fast', 'cont_fracs.py:_estimate_approach_type_and_params_inner_alg')
p('accuracy-limited iteration never exceeds the requested count',
  'gen_iterations(n, accuracy) executes at most n iterations whatever approach type/parameters are set, exactly n when the approach is not (super-)exponential or accuracy is 0.',
  'all n, approach types, parameters', 'all parameter values', 'basic_representation_types.py:BasicContFracAlgo.gen_iterations')
p('negating a negates the continued fraction',
  'Replacing every a polynomial by its negation (b unchanged) negates every convergent; this is the symmetry the uniqueness filters rely on.',
  'all coefficient lists, all depths', 'unbounded depth', 'lhs_evaluators.py:ULCDEvaluator.is_equiv', 'cont_fracs.py:eval_contfrac')
p('squeezing a constant interlace is harmless',
  'Replacing an interlace of identical polynomials by a single polynomial leaves a_i (b_i) and hence every convergent unchanged.',
  'all interlace lengths, polynomials and indices', 'unbounded', 'enum_poly_params.py:polys_generator')
p('eval_contfrac evaluates the nested fraction',
  'eval_contfrac(a, b) with len(a) == len(b)+1 is a[0]+b[0]/(a[1]+b[1]/...), with equal lengths it is b[0]/(a[0]+b[1]/...) as documented, omitted b means ones, any other length combination raises ValueError, and ZeroDivisionError is raised exactly when some inner denominator is zero.',
  'all value lists', 'unbounded lengths', 'cont_fracs.py:eval_contfrac')
p('the two evaluators agree',
  'eval_dec_contfrac_by_polys(a, b, n+1), when it does not divide by zero, equals the result of ContFrac(a, b, avoid_zero_b=False).gen_iterations(n): the value stored in the hashtable and the value re-checked during refinement are the same number.',
  'all coefficient lists, all n', 'two different algorithms (bottom-up and recurrence) over unbounded depth', 'cont_fracs.py:eval_dec_contfrac_by_polys', 'cont_fracs.py:ContFrac')
p('convergence estimation terminates',
  'estimate_approach_type_and_params always terminates, whatever the inner estimator returns, after at most log2(initial_cutoff)+10 inner estimations, and stores the last inner answer. The cutoff is halved down to 0, then fewer and fewer iterations from the start are looked at, until an answer other than fast is found.',
  'all inner answers and all parameters', 'adversarial inner answers', 'cont_fracs.py:estimate_approach_type_and_params')
# ---------------------------------------------------------------- hashtable
p('hashtable read-your-write',
  'After t[k] = v, t[k] returns v and k in t is True, for every table state and key, whatever accuracies were used before.',
  'all table states (any history of operations) and all keys', 'all histories', 'decimal_hashtable.py:DecimalHashTable.__setitem__', 'decimal_hashtable.py:__getitem__')
p('key comparison is by a fixed number of leading characters',
  'With a constant accuracy n the table behaves as a map keyed by the first n+2 characters of the decimal string: a write to k is visible at k\' exactly when these prefixes agree, other keys are untouched.',
  'all histories of writes and reads at one accuracy', 'all histories and keys', 'decimal_hashtable.py:_manipulate_key')
p('raising or lowering the accuracy loses nothing',
  'A value written before any number of update_accuracy calls is still found under its key afterwards.',
  'all table states, keys and sequences of accuracy updates', 'all sequences', 'decimal_hashtable.py:update_accuracy')
p('writing a key does not disturb other keys',
  'Writing k leaves the value found at every other key k\' unchanged unless the two keys agree up to the current accuracy.',
  'all table states including several accuracies', 'all histories', 'decimal_hashtable.py:__setitem__')
p('deleting removes the key',
  'After del t[k] the key k is no longer in t (and nothing else changes).',
  'all table states and keys', 'all histories', 'decimal_hashtable.py:__delitem__')
p('inherited dict methods honour the key accuracy',
  't.get(k), t.setdefault(k, d) and t.pop(k) address the same entry as t[k].',
  'all table states and keys', 'all keys and states', 'decimal_hashtable.py:DecimalHashTable', 'enum_params.py:_iter2hashtalbe')
p('serialisation round-trip',
  'Pickling and unpickling a table gives a table with the same accuracy, accuracy history and entries.',
  'all table states', 'all states', 'decimal_hashtable.py:__getstate__', 'decimal_hashtable.py:__setstate__', 'decimal_hashtable.py:__reduce__')
p('append_dict merges without loss',
  'append_dict(other) raises TypeError exactly when the accuracies differ; otherwise every key of either table is present afterwards, with the old entries followed by the appended ones, and every lookup that succeeded in either table succeeds in the result.',
  'all pairs of tables', 'all contents', 'decimal_hashtable.py:append_dict')
p('joining hashtables does not depend on file order',
  'Joining the hashtable files of a directory gives, key by key, the same collection of entries for every order in which the files are listed.',
  'all sets of tables and all listing orders', 'directory order is OS dependent', 'join_hashtables.py:main', 'decimal_hashtable.py:append_dict')
p('the integer-root clean-up removes exactly the offending entries',
  'The hashtable fix-up script removes exactly the entries one of whose b polynomials is reported to have an integer root, keeps the order of the others, and drops keys that become empty.',
  'all hashtables', 'all contents', 'fix_hashtable_filter_init_b_root.py:main')
# ---------------------------------------------------------------- enumeration of a,b
p('enumeration is exhaustive and repetition free',
  'polys_generator(range_a, range_b) yields every pair of interlaced polynomials with coefficients in the half-open ranges that passes the configured filters, squeezed if constant interlace, exactly once, and nothing else (if continued fraction objects are generated, b must have a polynomial and the first polynomial of a a coefficient).',
  'all ranges, interlace shapes and filter settings', 'unbounded ranges and shapes', 'enum_poly_params.py:BasicEnumPolyParams.polys_generator')
p('length estimate is an upper bound',
  'The length returned with the generator is at least the number of generated pairs (and equal to it when no filter applies), for normal, indexed and sparse enumerations with well-formed ranges.',
  'all ranges and enumeration types', 'all shapes', 'enum_poly_params.py:_len_decorator', 'enum_poly_params.py:SparseParameterEnumPolyParams')
p('integer-root test',
  'After factoring out powers of x, for polynomials of degree at most 2 the integer root test returns True exactly when the polynomial has a (positive, hence truncating) integer root, and the zero polynomial counts as having one.',
  'all integer coefficient lists', 'all coefficients', 'enum_poly_params.py:_does_have_integer_roots', 'enum_poly_params.py:_factor_out_polynom')
p('no enumerated b hits zero',
  'With avoid_int_roots=True, a generated pair whose b polynomials all have degree at most 1 never makes b_i zero at i>0, so its continued fraction is never truncated.',
  'all ranges and indices', 'all indices', 'enum_poly_params.py:polys_generator')
p('polynomial degree',
  'The degree helper returns the index of the last non-zero coefficient, -1 for the zero polynomial.',
  'all coefficient lists', 'all lists', 'enum_poly_params.py:_polynom_degree')
p('indexed enumeration expands shifted powers',
  'For coefficients (c_0..c_n) the indexed enumeration produces the coefficient list of c_0*x^n + c_1*(x+1)^n + ... + c_n*(x+n)^n.',
  'all coefficient lists and evaluation points', 'all degrees', 'enum_poly_params.py:IndexedParameterEnumPolyParams.manipulate_poly')
p('sparse enumeration covers every placement once',
  'For an interlace of m coefficient lists of length k the sparse enumeration yields each of the binom(n,k)^m placements into polynomials of size n exactly once; for a single polynomial with non-zero coefficients no polynomial is repeated.',
  'all n, k, m and coefficient lists', 'all sizes', 'enum_poly_params.py:SparseParameterEnumPolyParams.manipulate_poly')
p('exponential-convergence pre-filter',
  'With enum_only_exp_conv, a generated non-interlaced pair always satisfies deg b <= 2 deg a, and every interlaced pair and every pair with deg b <= 2 deg a that passes the root filter is generated (if continued fraction objects are generated too, provided b has a polynomial, the first polynomial of a a coefficient, and, unless avoid_zero_b=False, no b_i used is zero).',
  'all ranges', 'all degrees', 'enum_poly_params.py:polys_generator')
# ---------------------------------------------------------------- LHS
p('ULCD sign flip and integer shift',
  'For a ULCD evaluator, flip_sign() negates the value and add_int(i) adds exactly i to it, for every sequence of such calls, with parameters that stay consistent with the value.',
  'all parameters, constants and call sequences', 'all sequences', 'lhs_evaluators.py:ULCDEvaluator')
p('rational function sign flip and integer shift',
  'For a rational-function evaluator, flip_sign() negates the value and add_int(n) adds exactly n, for every sequence of such calls interleaved with canonicalisation.',
  'all polynomials, constants and call sequences', 'all sequences', 'lhs_evaluators.py:RationalFuncEvaluator')
p('canonicalisation preserves the value',
  'canonalize_params() does not change the value of the LHS, produces a reduced fraction, and applying it twice is the same as applying it once.',
  'all numerator/denominator polynomials and added integers', 'all polynomials', 'lhs_evaluators.py:RationalFuncEvaluator.canonalize_params')
p('degenerate means constant',
  'is_degenerate() of a rational-function LHS is True exactly when the rational function is constant; for ULCD it is True only when the expression does not depend on the constant.',
  'all parameters', 'all polynomials', 'lhs_evaluators.py:is_degenerate')
p('ULCD equivalence is sound and an equivalence relation',
  'If two ULCD results are reported equivalent then their LHS values agree up to sign and their continued fractions agree up to sign at every depth; the relation is reflexive, symmetric and transitive.',
  'all parameter tuples with non-zero d and all constants', 'all tuples', 'lhs_evaluators.py:ULCDEvaluator.is_equiv')
p('rational function equivalence is sound',
  'If two rational-function results with the same post-processing function are reported equivalent, then p1/q1 - p2/q2 is a constant (as documented).',
  'all polynomials', 'all polynomials', 'lhs_evaluators.py:RationalFuncEvaluator.is_equiv')
p('ULCD enumeration',
  'The ULCD enumerator yields exactly the tuples of the cartesian product with l != 0, d != 0 and |c| < |d|, each once; its len() is an upper bound; and every legal tuple agrees up to an integer with a tuple satisfying |c| < |d|.',
  'all parameter ranges', 'all ranges', 'lhs_evaluators.py:ULCDEnumerator')
p('rational function enumeration',
  'The rational-function enumerator yields exactly the numerator/denominator pairs of the cartesian product that are non-zero, not both constant, respect force_bigger_numerator, and evaluate to non-zero values at the constant, each once; len() is an upper bound.',
  'all parameter ranges and constants', 'all ranges', 'lhs_evaluators.py:RationalFuncEnumerator')
p('parameters describe the value',
  'At all times get_val() is the value described by get_params(); in particular copying an evaluator gives an evaluator with the same value.',
  'all sequences of reinit_params, flip_sign, add_int, canonalize_params', 'all sequences', 'lhs_evaluators.py:LHSEvaluator.__init__', 'lhs_evaluators.py:RationalFuncEvaluator.reinit_params')
# ---------------------------------------------------------------- MITM
p('hashtable content is sound and complete',
  'After build_hashtable every stored entry ((a,b), i) sits under the key obtained from post-processing function i of the continued fraction of (a,b), and every enumerated (a,b) with finite non-zero value is stored for every selected post-processing function with finite non-zero result.',
  'all enumerations, post-processing selections and table histories', 'all inputs', 'enum_params.py:MITM._iter2hashtalbe')
p('building never loses or duplicates entries',
  'Any sequence of build_hashtable calls keeps all earlier entries and never stores the same entry twice under one key; rebuilding with the same ranges changes nothing.',
  'all sequences of builds', 'all histories', 'enum_params.py:MITM._iter2hashtalbe')
p('entry validation only saves work',
  'With validate_entry_doesnt_exist=True, parameter/function combinations already stored are not evaluated again, and the resulting table is the same as without validation.',
  'all tables and enumerations', 'all inputs', 'enum_params.py:MITM._iter2hashtalbe')
p('click search is exact',
  'find_clicks returns exactly the combinations of a non-degenerate enumerated LHS and a stored entry whose keys agree to the hashtable accuracy.',
  'all hashtables and LHS enumerations', 'all inputs', 'enum_params.py:MITM.find_clicks')
p('every stored match is found (meet in the middle)',
  'If an enumerated LHS value has exactly the value of a stored continued fraction, then building the hashtable and running find_clicks reports that pair.',
  'all enumerations', 'end-to-end over all inputs', 'enum_params.py:MITM._iter2hashtalbe', 'enum_params.py:MITM.find_clicks')
p('refinement only filters',
  'Refining clicks returns a subsequence of the clicks (same a, b, function, convergence info, in order); a click survives exactly when its re-evaluated sides agree to the requested number of digits.',
  'all click lists and evaluators', 'all inputs', 'enum_params.py:MITM._refine_clicks')
p('refined identities hold',
  'For a click that survives refinement, the adjusted LHS (after sign flip, integer shift, canonicalisation) equals the RHS up to the requested accuracy.',
  'all values and accuracies', 'all values', 'enum_params.py:MITM._refine_clicks')
p('cancelling the last refinement is safe',
  'If the third refinement is interrupted at any point, the click list exported afterwards is the one from before it (same entries in the same order) and every exported LHS still equals its value before up to sign and an integer.',
  'all interruption points', 'arbitrary crash point', 'main.py:main', 'enum_params.py:_refine_clicks')
p('uniqueness filter',
  'filter_uniq_params keeps, in order, a subsequence of the clicks such that every dropped click is equivalent to an earlier kept one and no kept click is equivalent to an earlier kept one; running it twice is the same as once.',
  'all click lists and equivalence tests', 'all inputs', 'enum_params.py:MITM.filter_uniq_params')
p('positive integer root filter',
  'filter_pos_integer_roots_numerators drops a click exactly when one of its b polynomials has a root that is (within 0.001) a positive integer.',
  'all click lists and root lists', 'all inputs', 'enum_params.py:MITM.filter_pos_integer_roots_numerators')
p('approach type filter',
  'filter_clicks_by_approach_type keeps exactly the clicks whose estimated type is in the whitelist (or not in the blacklist), records the estimate, skips clicks whose estimation fails, and requires exactly one of the two lists.',
  'all click lists, estimators (including failing ones) and lists', 'all inputs', 'enum_params.py:MITM.filter_clicks_by_approach_type')
p('redefining settings takes effect',
  'After redefine_settings the enumerator is of the requested polynomial class, and previously stored entries are still found.',
  'all current and requested classes and tables', 'all combinations', 'enum_params.py:MITM.redefine_settings')
p('CSV export is all or nothing',
  'export_to_csv writes the file only after every row was produced; if producing any row fails the existing file is untouched; otherwise it contains one row per result in order.',
  'all result lists and failure points', 'arbitrary failure point', 'enum_params.py:MITM.export_to_csv')
p('equation export',
  'get_results_as_eqns returns, in order, one equation for every result whose continued fraction is not truncated, showing a_0 + b_1/(a_1 + ...) with the same a_i, b_i used for the evaluation.',
  'all result lists and depths', 'all inputs', 'enum_params.py:MITM.get_results_as_eqns', 'latex.py:latex_cont_frac')
p('LaTeX of the LHS denotes its value',
  'The LaTeX expression of a ULCD or rational-function LHS denotes the LHS value.',
  'all parameters', 'all parameters', 'lhs_evaluators.py:get_latex_exp')
p('LaTeX of the post-processing functions',
  'For every post-processing function the generated equation lhs = f(rhs) (or an equivalent one) is produced.',
  'all 24 functions and all lhs/rhs strings', 'all strings', 'postprocfuncs.py:POSTPROC_FUNCS_LATEX')
p('inverse pairs table',
  'INVERSE_POSTPROC_PAIRS contains (i, j) exactly when functions i and j are reciprocal of each other by construction (2k and 2k+1), and is symmetric.',
  'all index pairs', 'whole table', 'postprocfuncs.py:INVERSE_POSTPROC_PAIRS')
p('selected post-processing functions can be evaluated',
  'Each listed post-processing function returns a number (possibly inf or NaN) for every non-zero finite input instead of failing.',
  'all 24 functions and all finite inputs', 'all inputs', 'postprocfuncs.py:POSTPROC_FUNCS')
# ---------------------------------------------------------------- config / main / distribution
p('hashtable file versioning',
  'With operation generate the chosen hashtable file does not exist yet; with use/expand the chosen file is the existing one with the highest version.',
  'all directory contents and names', 'all directory states', 'configfile.py:ConfigParser._gen_hashtable_filename')
p('scalar option parsing',
  'String options are stripped and lower-cased with none/true/false recognised in any case; boolean options accept exactly true/false in any case and reject everything else; parsing is idempotent.',
  'all strings', 'all strings', 'configfile.py:string_parameter_parser', 'configfile.py:bool_parser')
p('path options keep the path',
  'A hashtable_file path read from the configuration refers to the same file as written there (up to the path separator).',
  'all path strings', 'all strings', 'configfile.py:path_parameter_parser')
p('saved configuration reproduces the run',
  'Writing the loaded parameters to a configuration file and loading it again gives the same parameters.',
  'all parameter values', 'all values', 'main.py:main', 'configfile.py:ConfigParser.set', 'distribute_run.py:main')
p('optional parameters default',
  'Optional parameters left out of the configuration take their documented defaults (i = 0, is_test = False, validate... = True), other missing parameters are None.',
  'all configuration files', 'all subsets of keys', 'configfile.py:ConfigParser.__init__')
p('gen_hashtable_only=auto',
  'auto is translated to True for generate/expand and False for use; illegal hashtable_file_operation values are rejected.',
  'all configurations', 'all combinations', 'configfile.py:ConfigParser.__init__')
p('the configured constant is the one searched',
  'Every run that searches for clicks searches for the constant named in the configuration, for every supported constant name and index.',
  'all configurations and stored hashtables', 'all combinations', 'main.py:main', 'gen_consts.py:set_precision_decor')
p('splitting a search partitions it',
  'split_params divides the a/b coefficient ranges into parts such that every coefficient assignment of the original ranges lies in exactly one part, with 2^k non-empty parts, or reports that the ranges cannot be divided.',
  'all ranges and split depths', 'all ranges', 'distribute_run.py:split_params')
p('distributed parts do not overwrite each other',
  'The configuration files and hashtable files of different parts have different names.',
  'all part counts and base names', 'all counts', 'distribute_run.py:main')
p('distributed search equals the single search',
  'Building the hashtables of all parts of a split and joining them, in any order, gives for every key the same collection of entries as building one hashtable over the original ranges.',
  'all ranges, split depths, selections and join orders', 'end-to-end', 'distribute_run.py:split_params', 'join_hashtables.py:main', 'enum_params.py:_iter2hashtalbe')
p('digit comparison',
  'compare_dec_with_accuracy(d1, d2, n) is True exactly when the two decimals have the same first n digits after the decimal point, for values in [0, 1).',
  'all decimals', 'all values', 'enum_params.py:compare_dec_with_accuracy')
p('convergence errors trace',
  'build_contfrac_errors(cf, n) lists (i, |convergent_i - target|) for i = 1..n and leaves the object at zero iterations.',
  'all continued fractions and n', 'all depths', 'process_and_compare.py:build_contfrac_errors')
p('old result files are read back exactly',
  'Polynomials written to a result CSV as Python tuples are read back as the same nested lists.',
  'all nested tuples of integers', 'all shapes and values', 'process_and_compare.py:old_enum_csv_to_pdf', 'enum_params.py:export_to_csv')
p('output name of the CSV to PDF conversion',
  'The PDF is generated beside the CSV under the same name without the .csv extension.',
  'all paths', 'all strings', 'process_and_compare.py:old_enum_csv_to_pdf')
p('stored hashtables are kept',
  'A run never changes a hashtable file that already exists: generate saves to a new version, expand saves to the latest version plus one (as config.ini documents), use saves nothing.',
  'all configurations, directory contents and outcomes of the single steps', 'all runs', 'main.py:main', 'configfile.py:ConfigParser._gen_hashtable_filename', 'config.ini')
p('only complete hashtables are stored',
  'A hashtable file is written only after the hashtable was built to the end; a run that fails before that leaves all stored hashtables as they were.',
  'all configurations, stored files and failure points', 'all failure points', 'main.py:main')
p('gen_hashtable_only runs do not search',
  'A run with gen_hashtable_only (given, or through auto) never starts a search for clicks, whatever else is configured.',
  'all configurations and stored files', 'all combinations', 'main.py:main', 'configfile.py:ConfigParser.__init__')
p('constant generators',
  'Each constant generator returns the constant it is named after at the current precision and sets the precision only when one is passed.',
  'all generators, precisions and arguments', 'all call patterns', 'gen_consts.py:set_precision_decor', 'gen_consts.py:gen_zeta_const')
p('convergence estimator recognises the approach type',
  'estimate_approach_type_and_params reports exp when the sampled convergents of equal parity approach each other geometrically, poly2sympoly when they do so slowly, and never reports exp or super_exp without such a geometric decrease.',
  'all continued fractions, call histories and sampling arguments', 'unbounded family of sequences', 'cont_fracs.py:_estimate_approach_type_and_params_inner_alg', 'cont_fracs.py:estimate_approach_type_and_params')
p('stored convergence parameters are usable',
  'An exponential approach type comes with a base larger than 1 and a positive coefficient; for exactly geometric errors C*r^-n they are r and |C|.',
  'all continued fractions and sampling arguments', 'all sequences', 'cont_fracs.py:_estimate_approach_type_and_params_inner_alg')
p('the estimator always answers with a documented type',
  'estimate_approach_type_and_params returns for every continued fraction and stores one of the types exp, super_exp, poly2sympoly, undefined, fast, mixed.',
  'all continued fractions', 'all sequences, including undefined convergents', 'cont_fracs.py:estimate_approach_type_and_params')
p('iterations limited by an accuracy reach it',
  'If the stored exponential parameters bound the error by coeff*base^-n, then gen_iterations(n, accuracy) with n large enough returns a value within accuracy of the limit.',
  'all continued fractions, parameters and accuracies', 'all real parameters', 'cont_fracs.py:gen_iterations')
p('a search returns only verified results',
  'Every result of a completed search comes from an enumerated, non-degenerate LHS whose key was in the hashtable, its LHS value agrees with the postprocessed value of its continued fraction to the accuracy of the last refinement, its convergence is fast and of type exp or super_exp, it has no b polynomial with a positive integer root, and no two results are equivalent.',
  'all hashtables, enumerations, evaluators and configurations of the search', 'all executions of the whole search', 'main.py:main', 'enum_params.py:MITM')
p('convergence analysis does not depend on the sign of the a polynomials',
  'Negating all a polynomials changes neither the verdict of is_convergence_fast nor the estimated approach type and parameters, and negates the value computed for the hashtable and the result of gen_iterations with an accuracy; so it does not matter which of two mirrored clicks filter_uniq_params removes.',
  'all continued fractions, depths, accuracies and sampling arguments', 'all polynomials and depths', 'cont_fracs.py:ContFrac', 'cont_fracs.py:eval_dec_contfrac_by_polys', 'enum_params.py:MITM.filter_uniq_params')
p('a search loses no verified result',
  'If an enumerated, non-degenerate LHS and a hashtable entry with the same key pass every test of the search (digits in the three refinements, fast convergence of type exp or super_exp, no b polynomial with a positive integer root), then a completed search returns this continued fraction (for the identity up to the sign of a) with an LHS of the same value up to sign and an integer.',
  'all hashtables, enumerations and configurations of the search', 'all executions of the whole search', 'main.py:main', 'enum_params.py:MITM')
p('polynomials read from a CSV row are the written ones',
  'load_cont_fracs returns, for a row with the printed lists of coefficients, exactly the polynomials written in it, of whatever degree.',
  'all lists of polynomials', 'all degrees and coefficients', 'process_and_compare.py:load_cont_fracs')
p('malformed CSV rows are skipped, the others loaded',
  'load_cont_fracs reports a malformed row and goes on: every well-formed row of the file is loaded, in order, whatever the other rows contain.',
  'all files', 'all mixtures of rows', 'process_and_compare.py:load_cont_fracs')
p('only arithmetic formulas are evaluated',
  'load_cont_fracs gives to eval only formulas consisting of digits, + - * / x, spaces and parentheses.',
  'all cells', 'all strings', 'process_and_compare.py:load_cont_fracs')
p('the analysis of a CSV file answers for each row',
  'analyze_contfracs_csv returns, in the order of the rows, for each loaded continued fraction what is_convergence_fast and estimate_approach_type_and_params answer for it, independently of the other rows and of the iterations made for the plot.',
  'all files and both file types', 'all sequences of rows', 'process_and_compare.py:analyze_contfracs_csv', 'process_and_compare.py:find_linear_fitting')
p('each configuration of a directory is run once',
  'run_distributed_configs starts main.py exactly once for each .ini file of the directory, with the path of the file as its argument.',
  'all directory paths and contents', 'all path strings', 'run_distributed_configs.py:main')
p('the results of a search are stored',
  'When a search ends, its results are written to a new directory under results/, whose name is the time; the CSV file is there whatever happens to the PDF file, and no file that existed before is changed.',
  'all results, times and states of the file system', 'all file system states, failures and clock readings', 'main.py:main')
p('joining a directory of hashtables',
  'join_hashtables writes to the output file a hashtable with exactly the entries of all the hashtables of the directory; if it fails, or if the output file exists, it changes no file.',
  'all directories, tables and output paths', 'all file system states', 'join_hashtables.py:main')
p('printing slow continued fractions only prints',
  'filter_only_exp_convergence keeps exactly the clicks whose continued fraction converges fast, in their order, and print_surprising_nonexp_contfracs changes only what is printed.',
  'all lists of clicks', 'all continued fractions, including those the estimator cannot handle', 'enum_params.py:MITM.filter_only_exp_convergence')
p('reinitialize turns the object into the new continued fraction',
  'After reinitialize(a_coeffs, b_coeffs), with the argument formats of the constructor, all methods of a ContFrac object answer for the new continued fraction, whatever was called before.',
  'all objects, histories of calls and coefficients', 'all call histories', 'cont_fracs.py:ContFrac.reinitialize', 'basic_representation_types.py:BasicRecursiveConstRepresenter.reinitialize')
p('compare_result measures the distance to the target',
  'compare_result returns the difference (or its absolute value) between the last result and the given target, or the target of the object if none is given; it raises ValueError without a target and RuntimeError if no result was generated.',
  'all continued fractions, histories and targets', 'all call histories', 'basic_representation_types.py:BasicRecursiveConstRepresenter.compare_result')
p('neither the order of options nor unknown options matter',
  'A configuration file with the same options in another order or in other sections gives the same configuration; options that are not in CONFIG_PARAMS_TYPES do not affect those that are and do not make the load fail.',
  'all configuration files', 'all orders and texts', 'configfile.py:ConfigParser.__init__', 'configfile.py:ConfigParser._cast_unknown_param_val')
p('converting a results file to PDF shows each of its results',
  'old_enum_csv_to_pdf reads a results file and generates a PDF with one equation for each result of the file, in their order, each equating the LHS of the result with the post-processed continued fraction.',
  'all results files, of the old format and of the present export_to_csv, for all constants', 'all lists of results and functions, all polynomials and parameters',
  'process_and_compare.py:old_enum_csv_to_pdf')
p('the script classifies the convergence',
  "is_poly_or_exp_approach answers 'exp' for a continued fraction whose convergents approach each other faster than the threshold and 'poly2sympoly' for one where they approach each other slower, and does not answer so if they do not converge.",
  'all continued fraction objects, histories and arguments', 'all continued fractions and sampling arguments', 'process_and_compare.py:is_poly_or_exp_approach')
p('the distributed configurations describe the parts of the search',
  'For every accepted configuration file whose ranges can be split into the given number of parts, distribute_run creates the directory <name>_dist_<parts> and in it one configuration per part; main.py reads each of them as the original configuration with the ranges of the part and a hashtable file of its own. Other files are left unchanged.',
  'all configurations, part counts and file systems', 'all configurations; several programs and the file system', 'distribute_run.py:main', 'configfile.py:ConfigParser')
p('a stored hashtable can be expanded',
  'After a run with hashtable_file_operation = generate, any number of runs with expand extend the stored table: each of them ends normally iff generating a new table with its options would, and the file then holds under every value exactly the entries that the runs would have generated separately, each once, the older ones first.',
  'all options, functions and sequences of runs', 'all ranges and sequences of runs of the program; the file between them', 'main.py:main', 'enum_params.py:MITM.__init__', 'enum_params.py:MITM.redefine_settings', 'enum_params.py:MITM.build_hashtable', 'decimal_hashtable.py:DecimalHashTable')
p('no run loses the stored hashtable',
  'A run with hashtable_file_operation use or expand keeps all entries of the table in hashtable_file. If it ends with an exception, the file is unchanged.',
  'all options and file contents, all points at which the run is stopped', 'all points of failure, including the write of the file', 'main.py:main', 'enum_params.py:MITM.redefine_settings', 'enum_params.py:MITM.build_hashtable')
p('enum_only_exp_conv loses no exponentially converging fraction',
  'With enum_only_exp_conv the enumeration skips only continued fractions that do not converge exponentially: every pair of polynomials in the ranges that passes the other filters, has b_n != 0 for all n >= 1 and whose convergents approach a real number exponentially fast is yielded.',
  'all ranges, interlaces and numbers of iterations', 'a statement about limits, for all polynomials', 'enum_poly_params.py:BasicEnumPolyParams.polys_generator', 'enum_poly_params.py:BasicEnumPolyParams._polynom_degree')
p('enum_only_exp_conv yields only exponentially converging fractions',
  'With enum_only_exp_conv all yielded non-interlaced continued fractions with b_n != 0 for all n >= 1 converge exponentially.',
  'all ranges and numbers of iterations', 'a statement about limits, for all polynomials', 'enum_poly_params.py:BasicEnumPolyParams.polys_generator', 'enum_params.py:MITM.__init__')
p('the continued fractions of gen_errors_for_nips converge as documented',
  'The four continued fractions of gen_errors_for_nips converge to the targets given there with the documented speed: cf1 to 1/(e/2 - 1) faster than every exponential rate, cf2 and cf3 to 4/pi exponentially and not faster, cf4 to pi + 3 polynomially. build_contfrac_errors gives these errors, up to the error of the target it is given.',
  'all numbers of iterations and all approximations of the targets', 'a statement about limits; a run sees finitely many convergents to finitely many digits', 'gen_errors_for_nips.py:build_contfrac_errors', 'gen_errors_for_nips.py:cf1', 'cont_fracs.py:ContFrac')
p("the recorded continued fraction of Apery's constant is right and is found",
  'The continued fraction recorded in enum_poly_params.py, a_n = 2 + n(2+n)(4+3n), b_n = 2n^5(2n-1), converges to 5/(2 zeta(3)), exponentially and not faster; and every sparse enumeration with enough positions whose ranges contain its coefficients yields it, whatever the filters.',
  'all ranges, numbers of positions, filters, numbers of iterations and iteration orders of sets', 'a statement about a limit, and about all configurations', 'enum_poly_params.py:SparseParameterEnumPolyParams', 'enum_poly_params.py:BasicEnumPolyParams.polys_generator')
p('with enough iterations and digits the refinement decides whether the limits agree',
  'For every accuracy n, if both sides of the clicks are evaluated and printed with a small enough error, a refinement that is not interrupted returns normally and keeps exactly the clicks whose two limits have the same first n digits after the point: identities that hold are never lost. For a converging continued fraction with positive terms this holds from some number of iterations on.',
  'all limits, accuracies, continued fractions, functions and numbers of iterations from some number on', 'a statement about limits of arbitrarily many iterations and digits', 'enum_params.py:MITM._refine_clicks', 'enum_params.py:MITM.refine_clicks_with_const_num_of_iters')
p('the linear fits find the speed of convergence',
  'find_linear_fitting returns for every error trace with two errors above its threshold; if the fitted errors lie between c r^i and C r^i, the exponential slope is within log(C/c) sqrt(3/(n^2-1)) of log r for n fitted errors, and exact for c = C; similarly the polynomial slope for errors between c i^k and C i^k. The parameter of a polynomial approach found by the estimator of cont_fracs.py is near (exactly) the order k if the differences are near (exactly) c i^-(k+1).',
  'all error traces, cutoffs, boundaries, rates and constants, and all regressions that return a best fit', 'a quantitative statement about all traces', 'process_and_compare.py:find_linear_fitting', 'gen_errors_for_nips.py:find_linear_fitting', 'cont_fracs.py:ContFrac._estimate_approach_type_and_params_inner_alg')
p('is_convergence_fast tells the exponentially converging continued fractions',
  'For two polynomials with no b_n = 0 and a large enough initial_cutoff, is_convergence_fast returns True exactly if the continued fraction converges exponentially: if it does, the ratio of errors two steps apart has a limit rho < 1, and the answer is whether rho < 16/17; if it does not, the answer is False.',
  'all pairs of integer polynomials, all cutoffs from some depth on, all steps >= 5 and iteration counts, all earlier histories of the object', 'quantifies over all polynomials and over unboundedly large cutoffs; the limits are real numbers', 'cont_fracs.py:ContFrac.is_convergence_fast', 'process_and_compare.py:analyze_contfracs_csv', 'enum_params.py:MITM.filter_only_exp_convergence')
p('The convergence estimator finds the type and the base in the limit of large cutoffs',
  'For two polynomials with no b_n = 0 and results computed without rounding, with a large enough initial_cutoff (at least six sampled indices, step at least 5) estimate_approach_type_and_params classifies the convergence: if the continued fraction converges exponentially and rho is the limit of the ratio of errors two steps apart, it stores exp with a base as close to sqrt(1/rho) as wanted if 0 < rho < 10/11, exp or super_exp with a base above any bound if rho = 0, and poly2sympoly if rho > 10/11; for positive terms without exponential convergence it stores poly2sympoly.',
  'all pairs of integer polynomials, all cutoffs from some depth on, all steps >= 5 and iteration counts, all earlier histories of the object', 'quantifies over all polynomials and over unboundedly large cutoffs; the limits are real numbers', 'cont_fracs.py:ContFrac.estimate_approach_type_and_params', 'cont_fracs.py:ContFrac._estimate_approach_type_and_params_inner_alg')
p('Rounding to the working precision does not spoil the computed values',
  'get_result returns NaN exactly if the denominator of the convergent is zero, and otherwise the convergent up to three roundings, however large the integers are. eval_dec_contfrac_by_polys returns a value near the exact nested fraction: for positive terms within the factor (1-u)^(-2n) for n divisions, and in general with an error that tends to zero as the precision grows. The refinement of a click with rounded evaluations keeps it exactly if both sides have the same first digits, for enough iterations and then enough bits. An exact division by zero is reported as such.',
  'all pairs of interlaced integer polynomials, all depths, all roundings with relative error u < 1 (in particular round-to-nearest-even with p bits for all p), all histories of the object', 'quantifies over all precisions and all polynomials; the error of a chain of roundings cannot be bounded by samples', 'cont_fracs.py:ContFrac.get_result', 'cont_fracs.py:eval_dec_contfrac_by_polys', 'enum_params.py:MITM.refine_clicks_with_const_num_of_iters')
p('The rule by which the estimator names the type of a convergence',
  'With at least six sampled indices (step >= 5, cutoff > 0) at which all convergents exist and those two apart differ, the type stored by estimate_approach_type_and_params depends only on the factors by which the distances shrink: scattered factors (root of the summed squared deviations divided by their number above half of the average, for one parity) give undefined unless all factors of the last quarters exceed 2; otherwise both averages above 1.1 give exp (or super_exp if scattered) with base the smaller root of the averages and coefficient the smaller average of the fitted coefficients, one of them above 1.1 gives mixed, none gives poly2sympoly.',
  'all pairs of interlaced integer polynomials, all windows with at least six samples, all histories of the object, all square roots with a small relative error', 'the rule has to hold for every continued fraction and window, tests sample a few', 'cont_fracs.py:ContFrac.estimate_approach_type_and_params', 'cont_fracs.py:ContFrac._estimate_approach_type_and_params_inner_alg')
p('ULCD evaluators and their refinement with rounded numbers',
  'The value of a ULCDEvaluator computed with rounded numbers stays within four roundings of the documented effect of all flip_sign and add_int calls made on it, however many there were, and depends only on its parameters; flip_sign negates it exactly. With the constant known precisely enough, enough iterations and then enough bits, refine_clicks_with_const_num_of_iters with rounding on both sides keeps exactly the clicks for which (u/x + x/l + c)/d and the limit of the continued fraction have the same first digits.',
  'all parameters, sequences of calls, constants, roundings with relative error u < 1 (sign: nearest-even with p bits); all lists of clicks with converging continued fractions (signs of the terms arbitrary) and irrational sides, all accuracies',
  'quantifies over all call sequences and over limits of precision and iterations', 'lhs_evaluators.py:ULCDEvaluator', 'enum_params.py:MITM._refine_clicks', 'enum_params.py:MITM.refine_clicks_with_const_num_of_iters')
p('working precision of an object',
  'An object works with the precision it was last given (constructor of MITM or redefine_settings), a run of the program with DECIMAL_PREC digits; calls that raise leave the precision alone; reset_precision goes back to the precision of the constructor.',
  'all sequences of constructions, redefinitions, resets and constant generator calls, all precisions; all configurations and stored hashtables',
  'the precision is a variable of the process, so all interleavings matter', 'enum_poly_params.py:set_precision', 'enum_poly_params.py:BasicEnumPolyParams.reset_precision', 'enum_params.py:MITM.redefine_settings', 'main.py:main')
p('the clean-up script keeps its input',
  'A run of fix_hashtable_filter_init_b_root.py on root.ext writes at most root_fixed.ext and changes no other file, in particular not its input; runs on different files write different files; a run that raises writes nothing. For a hashtable filled at one accuracy the written one is the input without the entries with an integer root of b.',
  'all paths, file systems and contents', 'all paths: dots in directories, several dots, no extension, names of dots', 'fix_hashtable_filter_init_b_root.py:main')
p('command lines of the scripts',
  'Each script calls its main with the arguments its usage message describes (with the defaults for omitted ones) and prints the message for any other command line.',
  'all lists of arguments', 'all numbers and values of arguments', 'main.py:__main__', 'distribute_run.py:__main__', 'join_hashtables.py:__main__', 'fix_hashtable_filter_init_b_root.py:__main__', 'run_distributed_configs.py:__main__')
p('floats do not change the integer root test',
  'For coefficients below 2^20 in absolute value _does_have_integer_roots, which divides integers and takes square roots with floats, answers as with exact arithmetic.',
  'all polynomials with such coefficients', 'all coefficients up to a million; wrong answers would need two close numbers', 'enum_poly_params.py:_does_have_integer_roots')
p('rational functions are evaluated right with rounded numbers',
  'With numbers that are rounded after every operation: calls of flip_sign, add_int and canonalize_params succeed, and the parameters and the value do not depend on the history of rounding errors. With enough precision the value of a rational function LHS is a number near the documented function of the true constant (if that is not an integer), the enumerator drops no function because of rounding, and the refinement keeps exactly the clicks whose two sides have limits with the same first digits.',
  'all rational functions, all sequences of calls, all roundings with a small relative error', 'every input has its own precision; tests use one precision and one constant', 'lhs_evaluators.py:RationalFuncEvaluator', 'lhs_evaluators.py:RationalFuncEnumerator.generator', 'enum_params.py:refine_clicks_with_const_num_of_iters')
p('continued fractions with promotion matrices of the caller',
  'A ContFrac constructed with its own promo_mats_generator_func evaluates, after gen_iterations(n), the continued fraction of the elements that function returns, starting with the first_promo_mat given (a Moebius map of the fraction), whatever the state before. If the function raises, the exception is passed on, and an add_iterations that raises changes nothing. A first matrix given by the caller is kept when the polynomials change. avoid_zero_b still makes a zero numerator raise ZeroB.',
  'all objects in any state, all generator functions and first matrices, all n', 'the generator is any function; tests try the default one', 'cont_fracs.py:ContFrac.__init__', 'basic_representation_types.py:RegularBasicRepresentation.gen_iterations', 'basic_representation_types.py:RegularBasicRepresentation.add_iterations')
p('the layout of a configuration file does not matter',
  'Comments, empty lines, indentation, white space around names and texts, the delimiter, the case of the names and the breaking of long texts into lines do not change the configuration that is loaded. Files with options given twice or outside of sections are rejected. Files written by the program, read again as text, have the options and texts that were written.',
  'all files, all layouts, all written configurations', 'layouts are unbounded; tests read the files they come with', 'configfile.py:ConfigParser.__init__', 'main.py:main', 'distribute_run.py:main')
p('the continued fractions of the test suite are those of the named constants',
  'The six continued fractions of tests/test_cont_fracs.py converge to the targets named there: 4/pi + 1, pi + 3, 4/pi, e/(e - 1), the golden ratio and 2^(1/12) + 1. The assertions of the test hold for every object that is reinitialized with the coefficients, whatever it did before, for every number of iterations from the one given on, and for every target value within 1% of the threshold of the exact one (values with exact arithmetic).',
  'all objects in any state, all numbers of iterations from the given one on, all approximations of the targets', 'a statement about limits; the test tries one number of iterations, one object and one approximation', 'tests/test_cont_fracs.py:test_contfrac', 'cont_fracs.py:ContFrac.reinitialize', 'basic_representation_types.py:RegularBasicRepresentation.gen_iterations', 'basic_representation_types.py:BasicContFracAlgo.compare_result')
p('an incomplete configuration is noticed before the work starts',
  'If the configuration file cannot be opened, is not accepted or names no known constant, main raises and changes nothing. If an option that a run needs is missing, the run raises before it stores a hashtable or searches.',
  'all configuration files and configurations, all behaviours of the steps, all stored hashtables', 'needs all configurations and all ways in which the steps of a run of many hours can end', 'main.py:main', 'main.py:Parameters', 'configfile.py:ConfigParser.__init__')
p('the refinement by convergence info decides limits up to the requested digits',
  'If the stored (base, coefficient) of every click bounds the errors of its convergents, refine_clicks_with_convergence_info(accuracy=n) evaluates every continued fraction with an error of at most coefficient/base * 10^(-n-100) plus three roundings, and keeps exactly the clicks whose two sides, as real numbers, have the same first n digits after the point, provided that the sides keep a distance from the numbers with n digits that exceeds twice the errors.',
  'all lists of clicks, limits (rational or not), infos, roundings, numbers of digits, LHS classes', 'needs the true limits of continued fractions and all roundings; a test sees one evaluation', 'enum_params.py:refine_clicks_with_convergence_info', 'enum_params.py:_refine_clicks', 'basic_representation_types.py:BasicContFracAlgo.gen_iterations')
p('post-processing functions compute what their names say',
  'On Decimals, the identity, powers, square root, exponential, logarithm and their inverse values return, for inputs near r and with enough digits, numbers arbitrarily near to the value of the mathematical function at r. A refinement with these functions keeps, with enough iterations and digits, exactly the clicks for which f(limit of the continued fraction) and the left hand side have the same first n digits.',
  'all functions of POSTPROC_FUNCS but the trigonometric ones (which raise, C68), all r where the function is defined, all roundings and precisions', 'needs real limits and all roundings', 'postprocfuncs.py:safe_inverse', 'postprocfuncs.py:safe_sqrt', 'postprocfuncs.py:POSTPROC_FUNCS', 'enum_params.py:_refine_clicks')
p('plots of errors show the errors',
  'plot_errors(errors, lin_fit=find_linear_fitting(errors)) draws exactly one point (i, ln e_i), and in the second coordinate system (ln i, ln e_i), for each error above 10^-140, in order, and the straight line of the fit at the same places, which passes through all points if the errors are exactly geometric (a power of the index). It raises if such an error is not positive. analyze_contfrac of gen_errors_for_nips.py saves a picture with the points of the iterations 1..hi and the best line of the iterations lo+1..hi.',
  'all lists of errors, fits, continued fractions, targets and boundaries', 'a picture is not an output tests look at; all traces of errors are meant', 'process_and_compare.py:plot_errors', 'process_and_compare.py:find_linear_fitting', 'gen_errors_for_nips.py:plot_errors', 'gen_errors_for_nips.py:analyze_contfrac')
p('runs at the same time do not disturb each other',
  'If several runs of main.py are started together (as run_distributed_configs does) in the same directory, in whatever order their accesses to files alternate and whichever of them are stopped, each run that has ended normally has left what it leaves alone: its own table, still stored, made by its configuration from the table stored at the start, and the three files with its own results. Files of no run are not changed.',
  'all numbers of runs, configurations, searches, file systems and orders of the steps', 'a test sees one schedule; the number of orders is unbounded', 'run_distributed_configs.py:main', 'main.py:main', 'configfile.py:ConfigParser._gen_hashtable_filename', 'distribute_run.py:main')
p('the distributed workflow makes the table of the single run',
  'Split a configuration that generates a table with distribute_run, start main.py for all the written configuration files at the same time, and when all have ended join the tables they have stored with join_hashtables: every step succeeds if the single run of the configuration does, and the joined object has the settings of the object of the single run and under every number the same collection of entries.',
  'all configurations, split numbers, orders in which the runs access files and python visits sets, and orders of the listing', 'end-to-end over several processes; the number of schedules is unbounded', 'distribute_run.py:main', 'run_distributed_configs.py:main', 'main.py:main', 'join_hashtables.py:main')
p('entries are stored under the values of their continued fractions, up to rounding',
  'However small the tolerance, a table built with enough digits of working precision has every entry within the tolerance of the right place: an enumerated continued fraction with a selected function is stored under a key that differs from the fractional part of the absolute value of the function at the exact value of the fraction, at the chosen number of iterations, by less than the tolerance (modulo 1), and under no other key.',
  'all ranges, classes, selections of functions, numbers of iterations, tolerances and all precisions from some precision on', 'about limits of rounded computations for unbounded enumerations; a test sees one precision', 'enum_params.py:MITM.build_hashtable', 'enum_params.py:MITM._iter2hashtalbe', 'cont_fracs.py:eval_dec_contfrac_by_polys')
p('a larger, reordered or divided search loses no result',
  'A search reports exactly the continued fractions that pass its tests for an enumerated left-hand side, so a search with more left-hand sides, with a table that has more entries (for example one joined of several), or with both in another order, reports everything the smaller one reports (up to the sign of a for the identity), and dividing the left-hand sides among several searches reports the same as one search for all of them.',
  'all tables, enumerations, evaluators, convergence tests and divisions', 'relates pairs of unbounded runs through seven stages, in which deduplication depends on the order', 'main.py:main', 'enum_params.py:MITM.find_clicks', 'enum_params.py:MITM._refine_clicks', 'enum_params.py:MITM.filter_uniq_params')
p('Ctrl-C in the last stage loses no result',
  'A search that is cancelled with Ctrl-C at any point of its last stage and ends normally reports every result of the complete search (the same continued fraction, function and convergence, an equal left-hand side up to sign and an integer), and whatever it reports has passed all tests before the last stage.',
  'all points of the interrupt, tables, enumerations, evaluators and convergence tests, both LHS classes', 'the interrupt can come between any two operations; it leaves partly modified objects in lists that the following filters would have replaced', 'main.py:main', 'enum_params.py:MITM._refine_clicks', 'enum_params.py:MITM.filter_uniq_params', 'enum_params.py:MITM.filter_pos_integer_roots_numerators')
p('identities that hold are found, and what is found agrees in its true values',
  'If a function of the true value of a continued fraction and the true value of an enumerated left-hand side have the same digits after the point, all numbers are evaluated and printed with small enough errors, and the table has the fraction under its digits, then a search that returns reports the fraction. Conversely, the true values of the two sides of a result have the same digits, as many as the last refinement compares.',
  'all identities, tables, enumerations and evaluators with bounded errors', 'about real numbers, limits and every search space; errors of evaluation and printing pass through lookups, refinements and filters', 'main.py:main', 'enum_params.py:MITM.find_clicks', 'enum_params.py:MITM._refine_clicks', 'decimal_hashtable.py:DecimalHashTable.__getitem__')
p('the order in which python visits sets does not matter',
  'Python visits sets of functions and tuples in an order that can differ from process to process. The same sequence of calls of build_hashtable in two processes gives tables with the same entries under the same keys, each once, if all calls return; a build of a new table returns in one process exactly if it does in the other. Two ULCD searches with tables that have the same entries and the same left-hand sides, in different orders, report the same results up to the sign of a for the identity.',
  'all set orders, settings, ranges, sequences of builds and search spaces', 'a test runs with the orders of its own process; the sets are of function objects, whose hashes are addresses', 'enum_params.py:MITM.build_hashtable', 'enum_params.py:MITM._iter2hashtalbe', 'enum_poly_params.py:SparseParameterEnumPolyParams.manipulate_poly', 'enum_params.py:MITM.filter_uniq_params')
p('comparing more digits only removes results',
  'A search with larger first_filtering_precision, second_filtering_precision or third_filtering_precision and otherwise the same settings reports no continued fraction that the search with the smaller ones does not report (up to the sign of a for the identity).',
  'all search spaces, tables, settings and precisions', 'relates two runs with different settings over the whole search space; the number of iterations may depend on the precision', 'main.py:main', 'enum_params.py:MITM._refine_clicks', 'enum_params.py:MITM.compare_dec_with_accuracy', 'enum_params.py:MITM.refine_clicks_with_convergence_info', 'basic_representation_types.py:BasicContFracAlgo.gen_iterations')
p('wider settings lose nothing',
  'Widening a_coeffs_range or b_coeffs_range or selecting more postproc functions only adds entries to the hashtable, and a table extended from narrower settings to wider ones holds the same as one built with the wider ones at once; larger lhs_params only add left hand sides and results (up to the sign of a for the identity).',
  'all coefficient ranges, function selections, enumerator classes, tables, lhs_params and ULCD searches', 'relates two runs with different settings over all search spaces', 'enum_params.py:MITM.build_hashtable', 'enum_poly_params.py:BasicEnumPolyParams.polys_generator', 'lhs_evaluators.py:ULCDEnumerator.generator', 'lhs_evaluators.py:RationalFuncEnumerator.generator', 'enum_params.py:MITM.find_clicks')
p('every option has its effect',
  'Every option of the configuration file has an effect on the run, through the step it belongs to and no other: the options for building a table do not matter if a stored one is used, those of the search and the filters do not matter if only the table is generated, and there is no option that never matters.',
  'all configurations, constants, stored tables, and behaviours of the steps', 'that a setting is never read, or read by the wrong step, is a statement about all pairs of configurations', 'main.py:main', 'configfile.py:CONFIG_PARAMS_TYPES')
p('repeating a filter changes nothing',
  'Applying a filter or a refinement again with the same arguments, as main does with the filter for unique parameters, drops no further result and changes no value; refining again with fewer digits changes nothing either.',
  'all lists of clicks, constants, numbers of digits, filter arguments, and behaviours of the convergence estimates', 'each step rewrites the left hand sides it looks at, so the second application sees other inputs than the first', 'enum_params.py:MITM._refine_clicks', 'enum_params.py:MITM.filter_uniq_params', 'enum_params.py:MITM.filter_only_exp_convergence', 'enum_params.py:MITM.filter_clicks_by_approach_type', 'enum_params.py:MITM.filter_pos_integer_roots_numerators', 'main.py:main')
p('the order of the filters does not matter',
  'The filters for unique parameters, speed of convergence, type of convergence and integer roots, and the refinement, can be applied in any order: two of them applied in either order leave the same results, if both orders return.',
  'all lists of clicks, filter arguments, constants, and numerical libraries', 'which of two equivalent results is kept depends on the order of the list, and the refinement changes the left hand sides that are compared', 'enum_params.py:MITM.filter_uniq_params', 'enum_params.py:MITM.filter_only_exp_convergence', 'enum_params.py:MITM.filter_clicks_by_approach_type', 'enum_params.py:MITM.filter_pos_integer_roots_numerators', 'enum_params.py:MITM._refine_clicks')
p('an empty search is noticed',
  'If the configured ranges leave nothing to enumerate, because the lower bound of a coefficient is not below the upper bound, then building the table raises an exception; otherwise there is something to enumerate.',
  'all ranges, classes of polynomials, tables, and selected functions', 'a mistake in one bound is not visible in a test of the other bounds; an empty result looks like a search that found nothing', 'enum_params.py:MITM.build_hashtable', 'enum_poly_params.py:BasicEnumPolyParams.polys_generator')
p('an identity multiplied by a number is the same identity',
  'Multiplying a by a nonzero integer c and b by its square multiplies every value of the continued fraction by c, with the same exceptions, the same answer of the test for fast convergence and the same estimated kind of convergence; of two results that differ in this way only, the filter for unique parameters keeps one.',
  'all polynomials (interlaced or not), factors, depths, numbers of iterations, and constants', 'the relation must hold at every depth and for every factor; a test compares a few truncated values', 'cont_fracs.py:ContFrac.gen_iterations', 'cont_fracs.py:ContFrac.is_convergence_fast', 'cont_fracs.py:ContFrac.estimate_approach_type_and_params', 'enum_params.py:MITM.build_hashtable', 'enum_params.py:MITM.filter_uniq_params')
p('no continued fraction is enumerated twice',
  'Any two tuples yielded by polys_generator have different terms a_n or b_n at arbitrarily large n, so no continued fraction is evaluated and stored twice in one enumeration.',
  'all ranges, interlaces, filters, and the three classes of polynomials', 'different lists of coefficients could describe the same sequence, through interlaces, zeros or the change of basis; a test sees only the lists of one range', 'enum_poly_params.py:BasicEnumPolyParams.polys_generator', 'enum_poly_params.py:IndexedParameterEnumPolyParams.manipulate_poly', 'enum_poly_params.py:SparseParameterEnumPolyParams.manipulate_poly')

out = os.path.join(os.path.dirname(os.path.abspath(__file__)), '..', 'properties.jsonl')
with open(out, 'w') as f:
    for x in P:
        f.write(json.dumps(x) + '\n')
print(len(P))

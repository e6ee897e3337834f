# Formal model of dtw-python in Lean 4 — design

(Generated by `tools/gen_design.py` from `tools/design_head.md`, `tools/plan.json`, `tools/design_tail.md` and
`MANIFEST.json`.)

## What is modelled, and how

Definitions are function-by-function translations; each carries a comment with the file and lines in `/repo/dtw` it
models, and the word SIMPLIFICATION wherever it deviates.

| code | Lean module | how |
|---|---|---|
| doubles (`double`, numpy float64) | `Verif/Num.lean` | `F64 = nan / ninf / fin q / pinf`, `q : ℚ`. An operation is the exact rational operation followed by a rounding function that is a *parameter* (`Arith`: monotone, never NaN, fixes 0) and an optional fused multiply-add. Unless a theorem says `Arith.exact` it holds for every such arithmetic. `-0.0 = 0.0`, NaN payloads identified; that `dtw()` cannot tell them apart is C87. |
| IEEE-754 binary64, round to nearest even | `Verif/Binary64.lean` | `rnd64` constructed from 53-bit significands, subnormals, overflow; proved to be an `Arith`, to be the nearest double, ties to even (C49). |
| 64-bit patterns, signed zeros, NaN payloads | `Verif/Bits.lean` | `dtw()` and the kernel a second time on machine values of any type, with machine operations only required to agree with the model *after* forgetting signs of zeros and payloads; refinement proved (C87). The local cost function is required to respect the same identification. |
| stepPattern.py:274-276, storage of weights | `Verif/Stored.lean` | Weights rounded to doubles when the object is made; proved irrelevant (C67). |
| exceptions | `Verif/Err.lean` | Python exceptions, C `exit()`, undefined behaviour and divergence are values of type `Err`; nothing in the model is partial. |
| `dtw_core.c` (`argmin`, `computeCM`) | `Verif/Kernel.lean` | flat C buffers are lists; every read/write is bounds-checked (violation = `ub`), every `int` expression is range-checked, `error()` = `cExit`. |
| `_dtw_utils.pyx` `_computeCM_wrapper`, `_globalCostMatrix.py` | `Verif/Kernel.lean`, `Verif/Dtw.lean` | transposed dimensions, window matrix, seed, buffer checks. |
| `stepPattern.py` | `Verif/Pattern.lean`, `Verif/Tables.lean` | `StepPattern` and its methods, the `_P` builder, `rabinerJuangStepPattern`; the 40+ bundled tables are generated verbatim from the source text by `tools/gen_patterns.py`. |
| `mvm.py` | `Verif/Pattern.lean` | any elasticity. |
| `window.py`, `_canonicalizeWindowFunction` | `Verif/Window.lean` | four windows, unknown names, arbitrary user functions. |
| `_backtrack.py`, `dtw.py` | `Verif/Dtw.lean` | `dtw : Arith → Args → Except Err Result`, every option. |
| `countPaths.py` | `Verif/CountPaths.lean` | the loop over an n×m float matrix, its `int()` conversion. |
| `warp.py`, `warpArea.py` | `Verif/Warp.lean` | with two models of `scipy.interpolate.interp1d` (both implementations scipy has shipped). |
| `dtwPlot.py`, `StepPattern.plot` | `Verif/Plot.lean` | the data sent to matplotlib (`Drawing`), errors, dispatch. |
| `dtw` on a heap of mutable objects | `Verif/Heap.lean` | which arrays are copied/aliased/written, histories of calls with arbitrary mutation between them. |
| several threads, interruption | `Verif/Threads.lean` | `dtw` as a program whose steps are single accesses to objects; arbitrary schedules. |
| `__init__.py`, module-level statements of every module | `Verif/Imports*.lean`, `Verif/Sources.lean` | Python's import system as far as this package is concerned; other packages import without failure and bind nothing in `dtw`. `tools/gen_sources.py` extracts the statements from /repo. |
| numpy memory layout and dtype of the matrix argument | `Verif/Buffer.lean` | strided arrays, Cython's buffer check, `vstack`, `array(order='K')`. |
| window functions on index arrays vs. integers | `Verif/ArrayWindow.lean` | returned object, its shape and order, the int32 cast, truth values. |
| `__main__.py` | `Verif/Cli.lean` | argument vector, parsed files, output text. |
| `argparse` (CPython 3.11) as used by `__main__.py` | `Verif/Argparse.lean` | the parser for two positionals, `-h`, `--version`, `--step_pattern`: classification of words, abbreviations, `=`, `--`, negative numbers, left-over words. Compared outside Lean with the real argparse on 150000 random command lines (no difference). |
| `numpy.genfromtxt` on ASCII text, Python's `float` | `Verif/TextFile.lean` | newline translation, comments, splitting, numerals; `Verif/SpecFile.lean` says what a file of numbers is. |
| `_test_computeCM`, `_test_computeCM2`, `test_computeCM` (self-tests) | `Verif/SelfTest.lean` | without the printing. |
| `dtw_test_data.py` | `Verif/DemoData.lean` | both functions; `numpy.linspace`, `arange`, `fromstring` in doubles. |
| scipy's `cdist` metrics euclidean (the default), sqeuclidean, cityblock, chebyshev, in doubles | `Verif/Cdist.lean` | square root correctly rounded; elsewhere the metric stays an arbitrary function of two rows. |
| `StepPattern.__str__`, `DTW.__repr__`, Python's `%g`, numpy's text of an integer matrix | `Verif/Format.lean` | character by character; `Verif/SpecText.lean` is an independent reader of these texts. |

Specifications, separate from the model: `Verif/Spec.lean` (what a step pattern means, admissible warping paths and their
cost, curves, counting, the recursion, what a call is about), `Verif/SpecTextbook.lean` (textbook DTW: curves and
warping functions, no step-pattern tables), `Verif/SpecDoubles.lean` (rounding-error bounds), `Verif/SpecText.lean` (reading
printed numbers, equations and matrices), `Verif/SpecSeries.lean` (series of numbers).

Not modelled: matplotlib rendering, argparse's help text, non-ASCII text in input files,
sine, cosine and random numbers (parameters of the model of `dtw_test_data.py`), the other metrics of `cdist` (arbitrary functions of two rows), memory exhaustion and stack limits
(`alloca`), races inside a single array access, numpy warnings, signs of zeros and NaN payloads in the parts outside `dtw()` (for `dtw()` itself see C87).

## Method

1. `computeCM` (flat, transposed, mutable) refines a two-dimensional Bellman system (`Bellman` in Spec.lean): loop
   invariant over the row-major sweep (`Proofs/KernelProof*.lean`).
2. From the Bellman system alone, by well-founded induction on cells: soundness, optimality with respect to inductively
   defined warping paths, uniqueness (hence transposition, rule order, prefix laws), monotonicity, homogeneity, shifts,
   rounding-error propagation.
3. `_backtrack` replays the direction matrix into the specification's curve, with a termination measure.
4. `dtw` is reduced to these (`dtw_closed`, `dtw_open`, `closed_ok`, `open_ok`); property theorems combine them.
5. Facts about the finitely many bundled tables are proved by kernel evaluation (`decide +kernel`) over the *complete*
   table; constructors with parameters (`mvmStepPattern(e)`, builder chains) by induction.

Property theorems are the `Cnn_…` theorems in `Verif/Props/*.lean`; helper lemmas are in `Verif/Proofs/*.lean`. Every
hypothesis set is met by concrete calls: `example`s beside the theorems and `Props/Witnesses.lean`.


## Properties: model and proof method

| id | property | modelled by / proof method | status | theorems |
|---|---|---|---|---|
| C01 | Reported distance is optimal | Dtw+Kernel; refinement to Bellman, then soundness/optimality against inductive `WarpPath` | proved | `C01_distance_optimal` |
| C02 | 'No warping path' is raised exactly when there is none | same; optimality both ways (with the 1×1 +inf exception made explicit) | proved | `C02_no_path_iff`, `C02_distance_never_nan` |
| C03 | The returned path realises the returned distance | backtrack replay: the chosen directions form a `WarpPath` of exactly that accumulated cost, any arithmetic | proved | `C03_path_realises_distance` |
| C04 | Path end points | backtrack replay, `curve` of Spec | proved | `C04_end_points` |
| C05 | Warping curve is monotone and in range | chain lemmas on `fine`/`coarse` curves for ordered rules; negative witness for unordered ones; open begin: range from the open path relation | proved | `C05_open_begin_in_range`, `C05_open_begin`, `C05_monotone_in_range`, `C05_bundled_ordered`, `C05_unordered_pattern_not_monotone` |
| C06 | index1s/index2s/stepsTaken describe the same rule sequence | backtrack replay: all five fields are functions of one rule sequence | proved | `C06_open_begin`, `C06_same_rule_sequence` |
| C07 | Every cost-matrix cell obeys the step-pattern recursion | loop invariant of computeCM ⇒ Bellman | proved | `C07_C08_open_begin`, `C07_C08_recursion` |
| C08 | Direction matrix names the first minimising rule | loop invariant of computeCM ⇒ Bellman (`IsBest` = first minimiser) | proved | `C07_C08_open_begin`, `C07_C08_recursion`, `C08_direction_na` |
| C09 | Every cell is optimal for its partial alignment | induction on cells from the Bellman system | proved | `C09_nan_iff`, `C09_nan_iff_open_begin`, `C09_open_begin`, `C09_every_cell_optimal` |
| C10 | Global window is respected | path induction; negative witness for multi-step rules | proved | `C10_outside_is_nan`, `C10_open_begin`, `C10_window_respected`, `C10_intermediate_points_unchecked`, `C10_single_step_patterns` |
| C11 | Enlarging the window never hurts | optimality + path inclusion | proved | `C11_open_end_succeeds`, `C11_open_both_succeeds`, `C11_any_ends`, `C11_open_begin_succeeds`, `C11_larger_window` |
| C12 | Distance is monotone in the local costs | monotone replay of a path under pointwise larger costs, any monotone rounding | proved | `C12_weights_double`, `C12_C14_C15_bundled_double`, `C12_C14_C15_rabinerJuang_double`, `C12_any_ends`, `C12_monotone_in_costs`, `C12_bundled_weights` |
| C13 | Distance is homogeneous | Bellman.map: multiplication by c is an automorphism of the recursion; for powers of two in doubles: rounding commutes with the scaling in the middle of the range (`Props/PowersOfTwo.lean`) | proved | `C13_powers_of_two`, `C13_bundled_range`, `C13_other_factors`, `C13_homogeneous` |
| C14 | Non-negative costs give a non-negative distance | path induction; open begin: same on the dropped-row matrix | proved | `C14_open_begin_matrix`, `C12_C14_C15_bundled_double`, `C12_C14_C15_rabinerJuang_double`, `C14_open_begin`, `C14_velichko_negative`, `C14_nonnegative` |
| C15 | Self-alignment costs zero | diagonal path + C14 | proved | `C12_C14_C15_bundled_double`, `C12_C14_C15_rabinerJuang_double`, `C15_double`, `C15_self_alignment`, `C15_bundled` |
| C16 | Transposition law | Bellman.transpose + uniqueness; pattern transpose from Pattern.T | proved | `C16_transposed_pattern_wf`, `C16_transposition` |
| C17 | Symmetric patterns give a symmetric distance | C16 + rule-permutation invariance; checked for the whole table | proved | `C17_symmetric`, `C17_bundled`, `C17_asymmetric_not_symmetric` |
| C18 | normalizedDistance follows the normalization hint | unfolding `normalise` against `normBy` | proved | `C18_normalized_distance`, `C18_exact` |
| C19 | Hints are sound: path weight depends only on the end points | linear weight functional on rules, path induction; Bellman.shift | proved | `C19_bundled`, `C19_rabinerJuang`, `C19_mvm`, `C19_path_weight`, `C19_total_weight`, `C19_shift`, `C19_constant_cost`, `C19_constant_cost_N`, `C19_constant_cost_NM`, `C19_shift_open_end`, `C19_hints`, `C19_not_normalizable`, `C19_itakura_normalizable` |
| C20 | Open-end picks the best normalized prefix | nanargmin = FirstBest; comparison with closed end | proved | `C20_open_end_succeeds_any`, `C20_open_end_optimal`, `C20_C22_double_idempotent`, `C20_open_end_best_prefix`, `C20_open_end_le_closed_end`, `C20_rejects_NA`, `C20_open_end_succeeds_iff`, `C20_asymmetric_prefix`, `C20_rigid_prefix` |
| C21 | Prefix consistency | uniqueness of the Bellman system on sub-matrices; open begin / both ends: the prefix problem has the same Bellman system | proved | `C21_open_begin_prefix`, `C21_open_both_is_prefix`, `C21_open_end_normalized`, `C21_prefix`, `C21_open_end_is_closed_prefix` |
| C22 | Open-begin is optimal over all starting points | Bellman with a null seeded row, against inductive `OpenPath` | proved | `C22_open_both_succeeds_iff`, `C22_open_both_optimal`, `C20_C22_double_idempotent`, `C22_open_begin_optimal`, `C22_open_begin_succeeds_iff`, `C22_open_begin_indices`, `C22_bundled`, `C22_rejects` |
| C23 | Open-begin never beats itself: relation with the closed-begin alignment | path translation closed→open; negative witness | proved | `C23_open_end`, `C23_open_begin_le_closed`, `C23_bundled`, `C23_rigid_counterexample` |
| C24 | distance_only changes nothing but the missing path | case analysis of pickMapping; both calls share the matrices | proved | `C24_distance_only`, `C24_same_numbers`, `C24_open_begin_always_fails` |
| C25 | keep_internals only adds fields | same | proved | `C25_keep_internals`, `C25_added_fields`, `C25_series_kept` |
| C26 | Two-series call equals one-matrix call | cdist model; same Bellman system | proved | `C26_series_as_matrix`, `C26_one_dimensional`, `C26_dimension_mismatch`, `C26_wrong_dimensions` |
| C27 | asymmetric matches each query element exactly once | rule deltas (1, 0..2), chain lemma; reachability for existence | proved | `C27_asymmetric_exists_doubles`, `C27_C43_open_begin`, `C27_C43_one_per_query`, `C27_asymmetric_matches_once`, `C27_asymmetric_exists_iff` |
| C28 | Continuous patterns skip nothing | chain lemma for continuous rules, whole table checked | proved | `C28_open_begin`, `C28_continuous_curve`, `C28_bundled` |
| C29 | Kernel memory safety | computeCM never returns `ub`/`cExit` for well-formed patterns; explicit failing inputs otherwise | proved | `C29_no_undefined_behaviour`, `C29_bounds_checked`, `C29_overflow_unsafe`, `C29_bad_id_exits`, `C29_misordered_rules_overflow` |
| C30 | Backtracking terminates | measure i+j decreases along directions | proved | `C30_open_begin`, `C30_backtrack_terminates` |
| C31 | Step-pattern transpose is an involution | Pattern.T on rows | proved | `C31_transpose_involution`, `C31_transpose_spec`, `C31_transpose_rules` |
| C32 | All bundled and constructed patterns are well-formed | kernel evaluation over the whole table, induction for mvm | proved | `C32_bundled_wf`, `C32_mvm_wf`, `C32_rabinerJuang_wf`, `C32_C40_rabinerJuang_rejects` |
| C33 | Rabiner-Myers patterns are Rabiner-Juang patterns | row equality / rule-permutation + C34; any ends: same numbers (`Result.numbers`) | proved | `C33_any_ends`, `C33_named_are_rabinerJuang`, `C33_typeI`, `C33_same_rules`, `C33_same_distance` |
| C34 | Rule order does not affect the distance | uniqueness: candidates are a permutation, minimum agrees; any ends | proved | `C34_any_ends`, `C34_rule_order`, `C34_permutation` |
| C35 | countPaths counts exactly the admissible paths | loop invariant of countPaths against sets of rule sequences (`HasCount`); open begin and both ends: sums over start and end columns; in doubles the table of the recursion, one relative error per addition (`CloseCount`), pairwise sum included | proved | `C35_open_both`, `C35_debug_matrix`, `C35_closed`, `C35_open_end`, `C35_exact`, `C35_result_about`, `C35_found_path_is_counted`, `C35_open_begin`, `C35_bundled`, `C35_stray_window_args`, `C35_velichko_fails`, `C35_open_begin_mismatch`, `C35_double`, `C35_delannoy`, `C35_double_error`, `C35_overflow`, `C35_open_begin_double_error`, `C35_double_off_by_one` |
| C36 | countPaths and dtw agree on feasibility | C35 + C02; open begin: the part of a path after its last point in row 0 | proved | `C36_feasible_iff_doubles`, `C36_feasible_iff_open_end_doubles`, `C36_feasible_iff`, `C36_feasible_iff_open_end`, `C36_success_counts`, `C36_open_begin_success_counts`, `C36_open_begin_converse_fails`, `C36_open_begin_patterns` |
| C37 | Sakoe-Chiba band semantics | window semantics; explicit staircase paths for success, end point outside for failure | proved | `C37_iff_doubles`, `C37_asymmetric_doubles`, `C37_C38_free_moves`, `C37_cells`, `C37_cells_open_begin`, `C37_alignment_in_band`, `C37_too_narrow_raises`, `C37_wide_enough_succeeds`, `C37_asymmetric_succeeds` |
| C38 | Itakura and slanted-band window semantics | window semantics; explicit paths; the slanted band as evaluated in doubles, error analysis against the formula | proved | `C38_itakura_iff_doubles`, `C38_slanted_iff_doubles`, `C37_C38_free_moves`, `C38_itakura_cells`, `C38_itakura_excludes_start`, `C38_itakura_raises`, `C38_itakura_succeeds`, `C38_slanted_cells`, `C38_slanted_cells_near`, `C38_slanted_edge`, `C38_slanted_square`, `C38_slanted_end`, `C38_slanted_raises`, `C38_slanted_raises_any`, `C38_slanted_succeeds`, `C38_slanted_iff`, `C38_slanted_fractional_gap` |
| C39 | No window means no constraint | uniqueness: same window matrix | proved | `C39_trivial_windows` |
| C40 | Unknown names are rejected | case analysis of name lookups | proved | `C32_C40_rabinerJuang_rejects`, `C40_unknown_window`, `C40_unknown_window_typeError`, `C40_window_args`, `C40_unknown_pattern`, `C45_unknown_type`, `C48_unknown_pattern` |
| C41 | warp returns one valid index per target point | numpy/scipy interpolation of de-duplicated points; in doubles by floor-preservation of rounded quotients (WarpDoubles.lean) | proved | `C41_complete`, `C41_means`, `C41_between`, `C41_of_dtw`, `C41_gap_not_interpolated`, `C41_gap_not_interpolated_scipy`, `C41_open_begin_gap`, `C41_distance_only`, `C41_double`, `C41_double_of_dtw`, `C41_C42_double_example` |
| C42 | warpArea is a non-negative deviation from the diagonal | interpolated curve `CurveAt`, linspace in exact arithmetic; in doubles exact where the diagonal meets grid points only (WarpDoubles.lean) | proved | `C42_area`, `C42_zero_iff_diagonal`, `C42_every_index_matched`, `C42_nonneg`, `C42_of_dtw`, `C42_doc_example`, `C42_open_begin_error`, `C42_distance_only`, `C42_out_of_range`, `C42_double_near`, `C42_double_near_of_dtw`, `C42_double_near_example`, `C42_double`, `C42_double_of_dtw`, `C41_C42_double_example` |
| C43 | Minimum variance matching | mvmRules, chain lemma | proved | `C27_C43_open_begin`, `C27_C43_one_per_query`, `C43_mvm`, `C43_mvm_wf` |
| C44 | print(stepPattern) describes the recursion that is computed | printed tokens read back (`readLine`) equal the candidate of the recursion; the text itself is modelled character by character and a separate reader (`Read.pattern`) recovers the rules from it, weights rounded to two digits (C44_text); exact and injective for two-digit weights | proved | `C44_printed_equation`, `C44_cost_matrix_satisfies`, `C44_text`, `C44_text_exact`, `C44_text_determines`, `C44_text_bundled`, `C44_text_ambiguous` |
| C45 | Plot helpers only use valid data | Drawing = data sent to matplotlib; explicit series and positions by list induction | proved | `C45_unknown_type`, `C45_alignment`, `C45_distance_only`, `C45_twoway`, `C45_threeway`, `C45_series_required`, `C45_twoway_rejects_vectors`, `C45_density`, `C45_density_at_end`, `C45_density_errors`, `C45_pattern_plot`, `C45_twoway_given`, `C45_bad_position`, `C45_twoway_multivariate`, `C45_which_series`, `C45_threeway_given`, `C45_threeway_vectors`, `C45_pattern_labels` |
| C46 | Calls are independent and inputs are not modified | heap simulation: dtw on the heap equals pure dtw on dereferenced arguments; frame conditions; induction on histories | proved | `C46_inputs_unchanged`, `C46_function_of_values`, `C46_history_independent`, `C46_calls_independent`, `C46_results_stable`, `C46_sharing`, `C46_own_arrays_free`, `C46_session`, `C46_default_dict_leaks`, `C46_pattern_object_leaks`, `C46_alias_leaks`, `C46_own_arrays_distinct`, `C46_attributes_separate` |
| C47 | Array layout and dtype never change the answer silently | strided memory; raw read of C-contiguous memory equals logical matrix | proved | `C47_layout`, `C47_accepted_iff`, `C47_contiguous_accepted`, `C47_rejected`, `C47_accepted_strides`, `C47_flags`, `C47_accepted_thin`, `C47_two_series` |
| C48 | Command line reports the library result | main2 composed from the dtw model; the printed numbers and the printed path are read back by separate readers (C48_output: four digits, path complete up to 500 points); layout by induction over the line-filling loop (C48_layout); command lines as lists of file names and options, by induction over the word list through argparse's classification and consumption loops (C48_any_order, C48_separator, C48_version_help, C48_unknown_option, C48_ambiguous) | proved | `C48_reports`, `C48_prints_optimum`, `C48_unknown_pattern`, `C48_file_shapes`, `C48_single_number`, `C48_command_line`, `C48_any_order`, `C48_separator`, `C48_version_help`, `C48_unknown_option`, `C48_ambiguous`, `C48_missing_value`, `C48_superfluous_value`, `C48_help_cluster`, `C48_layout`, `C48_output` |
| C49 | Double-precision accuracy of the distance | rnd64 nearest-even; relative error propagated through paths (Higham-style) by induction; special values (NaN, infinities) of +, *, / case by case; any ends: all paths of the recursion approximated simultaneously, one more rounding for the normalisation (`Props/Accuracy.lean`) | proved | `C49_any_ends`, `C49_nearest`, `C49_ties_to_even`, `C49_binary64_relerr`, `C49_rounding_error`, `C49_bundled`, `C49_rabinerJuang`, `C49_double_accuracy`, `C49_ieee_add`, `C49_ieee_mul`, `C49_ieee_div` |
| C50 | Integer costs are aligned exactly | rnd64 exact on integers up to 2^53; Bellman systems coincide for any seed; rounding keeps the order of quotients x/k with x*K < 2^52, so nanargmin picks the same end; the two result objects are equal up to the rounded normalized distance | proved | `C50_binary64_integers`, `C50_integer_costs_exact`, `C50_binary64_quotients`, `C50_bundled`, `C50_mvm`, `C50_sharp`, `C50_doubles`, `C50_open_end_tie` |
| C51 | Local slope constraints | slope interval of rules, chain lemma; reachability by explicit rule mixtures (Frobenius-style) for existence; with open ends by the flattest rule mixture, started at any element of the reference (`Props/SlopeOpen.lean`) | proved | `C51_slopes`, `C51_parallelogram`, `C51_out_of_bounds_raises`, `C51_exists_iff`, `C51_bundled`, `C51_bundled_rest`, `C51_unrestricted_exists`, `C51_mvm`, `C51_mvm_exists_iff`, `C51_open_end_iff`, `C51_open_begin_iff`, `C51_open_unrestricted`, `C51_mvm_open` |
| C52 | Rabiner-Juang slope weighting | kernel evaluation over all 56 patterns; induction over builder chains | proved | `C52_table`, `C52_builder`, `C52_smoothing_keeps_total`, `C52_unbiased` |
| C53 | Textbook meaning of the named patterns | `Reads`: each pattern's rule sequences ↔ textbook curves with equal cost; in general: sequences of productions <-> rule sequences, by induction | proved | `C53_named`, `C53_named_complete`, `C53_mori2006`, `C53_rabinerJuang`, `C53_symmetric1`, `C53_symmetric2`, `C53_asymmetricP0`, `C53_symmetricP1`, `C53_symmetricP05`, `C53_symmetricP2`, `C53_asymmetric`, `C53_mvm`, `C53_rigid`, `C53_doubles` |
| C54 | Zero distance exactly for time-stretched copies | zero-cost path + C14; converse through C53; searching in doubles: sums of representable non-negative costs are at least each of them (`fnSum_ge`); warping in doubles: rounding is idempotent and monotone, so a zero sum has zero summands (`C54_zero_iff_doubles`) | proved | `C54_zero_of_zero_curve`, `C54_zero_curve_of_zero`, `C54_stretched_copy`, `C54_zero_curve_of_zero_rounded`, `C54_zero_iff_doubles`, `C54_open_begin`, `C54_open_begin_doubles`, `C54_rigid_occurs`, `C54_open_end_underflow` |
| C55 | Lower and upper bounds used for pruning | C53 + summation over rows; in doubles: monotone rounding step by step along the path (`C55_row_bound_rounded`, `C55_pruning_is_safe`) | proved | `C55_row_bound`, `C55_row_bound_fn`, `C55_corner_bound`, `C55_diagonal_bound`, `C55_row_bound_rounded`, `C55_open_begin_rounded`, `C55_charges_arrival`, `C55_pruning_is_safe`, `C55_diagonal_bound_rounded`, `C55_open_begin_row_bound` |
| C56 | Time reversal | curve reversal + C53; open ends: both calls are least costs over warping functions (C59, C20_asymmetric_prefix), mirrored into each other | proved | `C56_time_reversal`, `C56_time_reversal_fn`, `C56_fn_patterns`, `C56_symmetric2_not_reversible`, `C56_reversal_open`, `C56_reversal_open_both`, `C56_reversal_series`, `C56_reversal_example`, `C56_rigid_not_exchanged`, `C56_doubles`, `C56_doubles_fn` |
| C57 | Concatenation and the triangle inequality | concatenation of rule paths block by block, additivity of exact charges; kernel-evaluated counterexamples | proved | `C57_concatenation`, `C57_diagonal_weights`, `C57_not_a_metric`, `C57_doubles` |
| C58 | Forbidden cells are never visited | absorption of NaN/+inf by multiply-add; induction along the path; Bellman system with cells moved from cost matrix to window, uniqueness | proved | `C58_distance_usable`, `C58_path_avoids`, `C58_mask_is_window`, `C58_mask_is_window_open`, `C58_bundled`, `C58_mvm`, `C58_uncharged_cell_visited`, `C58_nan_sample` |
| C59 | Open-begin search finds the best placement | in any arithmetic via the left-to-right sum `fnSum`; induction between paths from the null row and placement functions; C22 with both ends open | proved | `C59_any_arithmetic`, `C59_any_arithmetic_succeeds_iff`, `C59_asymmetric`, `C59_mvm`, `C59_rigid`, `C59_rigid_misses_offset_zero` |
| C60 | Window functions that return arrays | `PyWindow`: scalar and array behaviour of one function; the kernel depends on window entries only through being zero; frame lemma for buffers longer than the announced dimensions; induction over the clearing loop for the out-of-bounds case (`ArrayWindow.lean`, `Props/ArrayWindows.lean`) | proved | `C60_matching_shape`, `C60_elementwise`, `C60_disagreement`, `C60_rejected`, `C60_too_large`, `C60_same_size_is_reshape`, `C60_too_small`, `C60_fractions`, `C60_reshape_witness` |
| C61 | Size of an alignment | every consecutive pair of points raises i+j (fine_chain); a list on which i+j climbs has no repetition and its length is bounded by the climb; unit steps give the lower bound; `Read.sizes` reads the text back (`Props/Length.lean`) | proved | `C61_at_most`, `C61_steps`, `C61_at_least`, `C61_open_begin`, `C61_bundled`, `C61_rabinerJuang`, `C61_repr`, `C61_witness`, `C61_not_strict` |
| C62 | Stability under noise | the same rules applied with two cost matrices differ by at most eps per unit of weight (`WarpPath.stable`, `OpenPath.stable`, induction on the path); optimality in both directions; existence through the success characterisations of C09, C20, C22 (`Props/Stability.lean`) | proved | `C62_relative`, `C62_stable`, `C62_bundled`, `C62_normalized`, `C62_open_begin`, `C62_existence` |
| C63 | One-dimensional series | instances of C13, C15, C17, C54-C56, C62 through `ask_problem`, which turns a call on two lists of numbers into a `Problem` with costs |x_i-y_j|; squashing by induction along / construction of a zero curve (`SpecSeries.lean`, `Props/Series.lean`) | proved | `C63_translation`, `C63_scaling`, `C63_symmetry`, `C63_identity`, `C63_reversal`, `C63_zero_iff`, `C63_lb_keogh`, `C63_corners`, `C63_extremes`, `C63_lock_step`, `C63_noise` |
| C64 | The console script reads its files as they are written | a parser model of universal newlines, comment stripping, str.split and float(); inverse lemmas parser/specification by induction on the text; distinct doubles differ by at least 2^-53 of their size, so a decimal within 1/(2*10^16) of a double rounds to it; NaN rows block every path of a pattern that skips nothing (C28 + C58) (`TextFile.lean`, `SpecFile.lean`, `Props/TextFiles.lean`) | proved | `C66_C64_unreadable`, `C64_numbers`, `C64_round_trip`, `C64_python_text`, `C64_sixteen_digits`, `C64_only_numerals`, `C64_layout`, `C64_saved_table`, `C64_script`, `C64_unreadable`, `C64_underscores` |
| C65 | The kernel self-test has a closed form | explicit solution of the recurrence for the multiplication table, for any order of the three unit steps, and uniqueness of the solution; all sums below 2^53 so doubles are exact (`SelfTest.lean`, `Props/SelfTests.lean`) | proved | `C65_selftest`, `C65_empty`, `C65_is_symmetric1` |
| C66 | The default metric | a correctly rounded square root from Nat.sqrt, proved nearest in the reals; the square root of the rounded square of a double in range is the double again; error of the accumulated sum of squares by induction on the columns; then C50, C15, C17, C58, C63, C64 through `Problem`; from samples to distance by composing the metric's error (relative stability C62_relative) with C49 (`Cdist.lean`, `Proofs/SqrtProof.lean`, `Props/Metric.lean`, `Props/EndToEnd.lean`) | proved | `C66_chebyshev_exact`, `C66_sqeuclidean_accuracy`, `C66_cityblock_accuracy`, `C66_cityblock_end_to_end`, `C66_sqeuclidean_end_to_end`, `C66_chebyshev_end_to_end`, `C66_default_end_to_end`, `C66_euclidean_end_to_end`, `C66_sqrt`, `C66_one_column`, `C66_cityblock_one_column`, `C66_chebyshev_one_column`, `C66_overflow`, `C66_underflow`, `C66_default_is_cityblock`, `C66_exact_differences`, `C66_whole_numbers`, `C66_overflow_fails`, `C66_symmetric`, `C66_self`, `C66_nan`, `C66_chebyshev_skips_nan`, `C66_accuracy`, `C66_whole_numbers_exact`, `C66_C64_unreadable`, `C66_not_definite`, `C66_chebyshev_ignores_nan`, `C66_series_symmetry`, `C66_series_self`, `C66_names` |
| C67 | Step-pattern weights are stored as doubles | the kernel's decoding of the parameter vector, its relaxation loop, backtracking and counting read stored weights through rounding, marker test and truncation only; each is shown to give the same for storable weights, and the shipped weights to be storable (`Stored.lean`, `Props/StoredWeights.lean`) | proved | `C67_stored`, `C67_weights`, `C67_bundled`, `C67_countPaths`, `C67_print`, `C67_rounded_marker` |
| C68 | Every beginning and every ending of an alignment is an alignment | a prefix of the direction trace is a trace ending at the k-th corner; the smaller call has the same cells and directions (uniqueness of the recursion) and a trace is determined by its end point (`Props/Substructure.lean`); endings: paths of the ending extend the beginning, so its cost matrix dominates the rest of the whole one up to a constant; induction along the trace (`Props/Suffix.lean`) | proved | `C68_prefix`, `C68_prefix_open_begin`, `C68_suffix` |
| C69 | Early abandoning | one relaxation never lowers a representable cost (monotone idempotent rounding), by induction along the trace; the trace crosses every band of rows by induction (`Props/Substructure.lean`) | proved | `C69_along_path`, `C69_row_bound`, `C69_column_bound`, `C69_abandon`, `C69_bundled`, `C69_row_bound_open_begin` |
| C70 | Series with several features | local costs compared entry by entry through the accumulation loop of cdist (induction over the columns, monotone rounding, monotone correctly rounded square root), then C26 (same matrix, same result) and C12 (monotone in the costs) | proved | `C70_constant_feature`, `C70_more_features`, `C70_permuted_features`, `C70_chebyshev_order`, `C70_translated_features`, `C70_two_features`, `C70_order_matters` |
| C71 | Several threads, interrupted calls | a call as a program of single object accesses (`Verif/Threads.lean`), shown equal to the heap execution of Heap.lean; a logical relation between two copies of the program whose new objects have different addresses; invariant of the system of threads by induction on the schedule (`Proofs/ThreadsProof.lean`, `Props/Threads.lean`) | proved | `C71_any_schedule`, `C71_finishes`, `C71_interrupted`, `C71_retry`, `C71_results_disjoint`, `C71_race_matters` |
| C72 | The names of the package | an operational semantics of Python's import statements (`Verif/Imports.lean`) run on the import statements and definitions of all modules of the package (`Verif/Sources.lean`, generated from /repo); three package states are reachable, by case analysis on every statement and induction over the program; each state is a literal checked by the kernel (`ImportStates.lean`, `Props/Imports.lean`) | proved | `C72_attributes`, `C72_once`, `C72_star`, `C72_from_import`, `C72_import_as`, `C72_import_plain`, `C72_pattern_names`, `C72_alias`, `C72_unknown_module`, `C72_no_nested_module`, `C72_unknown_name`, `C72_known_name` |
| C73 | The demonstration data | `dtw_test_data.py` transcribed in `Verif/DemoData.lean` (sine, cosine and the random numbers are parameters); the relative error of a division and a multiplication in doubles for the time stamps, the reader of numerals of C64 for the tables, C74 for the call (`Props/DemoData.lean`) | proved | `C73_timestamps`, `C73_not_exact`, `C73_table`, `C73_aami`, `C73_abscissae`, `C73_equally_spaced`, `C73_sin_cos`, `C73_quick_start` |
| C74 | Finite data never overflow | induction over the path: the running cost after i+j moves is a double of size at most (1 + 2^20 (i+j)) 2^910, by monotone rounding towards doubles; so the paths of usable cost are all paths, and the existence criteria of C02, C20, C22, C51 and C62 carry over from exact arithmetic (`Props/Totality.lean`), also with open ends (`Props/SlopeOpen.lean`) | proved | `C74_open_end`, `C74_open_begin`, `C74_open_unrestricted`, `C74_mvm`, `C74_success`, `C74_finite`, `C74_bundled`, `C74_slope`, `C74_unrestricted`, `C74_series`, `C74_default_call` |
| C75 | One-dimensional series in double precision | the rounded difference of two different doubles is not 0 (both are multiples of 2^-1074); then C54, C55 in doubles, C13 for powers of two, C70 for translation, through `askWith_problem` (`Props/SeriesDoubles.lean`, `Props/PowersOfTwo.lean`) | proved | `C75_scaling`, `C75_zero_iff`, `C75_lb_keogh`, `C75_lock_step`, `C75_translation` |
| C76 | Coarse alignments bound fine ones | induction over the warping path: the blocks of its points form a path of the coarse problem (a step inside a block is dropped, any other becomes a rule with the remaining advance and no greater weight); costs compared by monotonicity of rounded multiply-add; then C01, C02, C20, C22 (`Props/Coarse.lean`) | proved | `C76_closed`, `C76_open_end`, `C76_search`, `C76_patterns`, `C76_repetitions`, `C76_boxes` |
| C77 | What lies off the alignment does not matter; ties | dominance of the two recursions (paths of the dearer problem are paths of the other at no greater cost), then induction along the trace: at each of its cells the winning candidate is the same and the earlier ones are only dearer; ties by cancellation in exact sums and induction along any optimal path (`Props/Canonical.lean`) | proved | `C77_kept`, `C77_kept_open_begin`, `C77_ties`, `C77_ties_open_begin`, `C77_same_optima`, `C77_band` |
| C78 | Several kinds of local cost | the cost of a rule sequence is linear in the local costs (induction over terms and path), so the best alignment of the sum, priced in each part, is not below that part's best; same for open ends via C20 and C22 (`Props/Mixture.lean`) | proved | `C78_existence`, `C78_distance`, `C78_normalized`, `C78_agreement`, `C78_columns`, `C78_not_euclidean`, `C78_doubles` |
| C79 | Stricter step patterns never align more cheaply | imitation of a rule by a sequence of rules, lifted to alignments by induction, with the rounding of every sum monotone (C12); success and optimum by C02/C01, C20, C22; the bundled pairs by a verified search over rule sequences evaluated by the kernel (`Props/Hierarchy.lean`) | proved | `C79_closed`, `C79_open_end`, `C79_open_begin`, `C79_bundled`, `C79_mvm` |
| C80 | Alignments without a choice | if only one rule goes in the direction of the only cells that can be reached, there is exactly one alignment (induction over the path); optimum and success by C01, C02 (`Props/Lockstep.lean`) | proved | `C80_line`, `C80_lockstep`, `C80_single_query`, `C80_single_reference`, `C80_lockstep_exact`, `C80_series` |
| C81 | Searching in a longer recording | shift of the dynamic programme by k columns (`Bellman.across`, `Bellman.across_kept`), first-best under more candidates (Recording.lean) | proved | `C81_longer_no_worse`, `C81_cut_out`, `C81_appended`, `C81_first_step`, `C81_first_step_patterns`, `C81_series`, `C81_rigid_boundary` |
| C82 | The normalized distance is a mean of the matched costs | induction along the path: every rule adds between lo and hi times its weight; total weight from C19, normalization from C18 | proved | `C82_distance`, `C82_mean_N`, `C82_mean_NM`, `C82_mean_open_begin`, `C82_bundled`, `C82_example`, `C82_not_in_doubles` |
| C83 | Weights within a factor | the same rule sequence under the other pattern costs at most K times as much (induction), then optimality C01; tables checked by the kernel | proved | `C83_factor`, `C83_rabinerJuang`, `C83_bundled`, `C83_symmetric`, `C83_sharp` |
| C84 | Outliers count once | grouping the terms of a rule by row and by column bounds what one sample is charged; induction along the path, then optimality C01; constants checked by the kernel (Outliers.lean) | proved | `C84_outliers`, `C84_any_ends`, `C84_shares`, `C84_mvm`, `C84_series`, `C84_symmetric2_counts_repeatedly` |
| C85 | A clear winner survives noise | the path found for the perturbed problem, priced in the original one, would beat the gap unless it is the same (C62/C84 along a fixed path, C01, C03); noisy copies: a path that leaves the diagonal is charged an off-diagonal cell (Winner.lean) | proved | `C85_winner`, `C85_winner_outliers`, `C85_any_ends`, `C85_strays`, `C85_noisy_copy` |
| C86 | Sample-and-hold resampling | lower bound from C76 (blocks); upper bound by following a path of the short series through the blocks, diagonally first (induction over the path), then optimality C01 (Hold.lean) | proved | `C86_hold`, `C86_patterns`, `C86_series`, `C86_uniform`, `C86_attained` |
| C87 | Signs of zeros and payloads of NaNs do not matter | second copy of the dtw code on an arbitrary machine type (Bits.lean), step-by-step refinement to the model (BitsProof.lean), 64-bit patterns decoded by fields, injectivity up to zeros and NaNs, surjectivity on doubles (Props/Bits.lean) | proved | `C87_machine`, `C87_signs_do_not_matter`, `C87_only_zeros_and_nans`, `C87_every_double`, `C87_bits` |
| C88 | Rounding does not change a clear winner | the path found in doubles is near-optimal exactly (C49), so it is the clear winner; noise added by C85's argument; distances transferred by the relative error (RoundedWinner.lean) | proved | `C88_rounding`, `C88_any_ends`, `C88_noise_and_rounding`, `C88_noisy_copy`, `C88_noise`, `C88_factor`, `C88_hold`, `C88_rigid_search` |
| C89 | Applying the warp | unit steps make the indices matched to one element consecutive, so a truncated mean is one of them; distinct cells of the curve sum to at most the path's cost (exactly, and through C49 in doubles); zero-cost path by induction for stretched copies (Warped.lean) | proved | `C89_matched`, `C89_each`, `C89_total`, `C89_total_doubles`, `C89_exact_copy`, `C89_stretched`, `C89_one_per_query`, `C89_bundled`, `C89_example`, `C89_one_per_query_example` |
| C90 | Comparing with a flat series | least cost over warping curves (C53) evaluated for costs that depend on one coordinate: every curve pays each element once plus at least the smallest cost per surplus unit of weight (induction on the curve), and an explicit curve attains it; series and doubles as corollaries | proved | `C90_symmetric1`, `C90_symmetric1_flat_query`, `C90_symmetric2`, `C90_symmetric2_flat_query`, `C90_function`, `C90_asymmetricP0`, `C90_doubles`, `C90_series`, `C90_series_asymmetric` |
| C91 | Offsets of the query samples do not matter | The offsets charged along a rule are a difference of partial sums (`OncePerQuery`, `EvenPerReference`), so the solution of the recursion is shifted by a potential; `Bellman.unique` and the last row give the outcome. Which bundled patterns qualify is decided on the table, `mvmStepPattern` by computation for every elasticity. | proved | `C91_rows`, `C91_fields`, `C91_cost_matrix`, `C91_columns`, `C91_squares`, `C91_flat_reference`, `C91_doubles`, `C91_flat_doubles`, `C91_bundled`, `C91_mvm` |
| C92 | Changing the local distance | The same sequence of rules is followed under two local costs (`WarpPath.related`, `OpenPath.related`) keeping an inequality: Cauchy-Schwarz with the weight charged so far, or `c' <= c^2`; optimality of each call gives the distances. Norm inequalities on lists of features give the metrics; the bundled patterns are decided. | proved | `C92_squares`, `C92_squares_normalized`, `C92_squares_open_begin`, `C92_squares_upper`, `C92_metrics`, `C92_bundled` |
| C93 | Transforming the samples | Model: the call on the mapped series (`List.map`), local costs as rounded differences. Proof: rounding is monotone, so no rounded difference grows; then monotonicity in the local costs (C12). Exact: the two-sided comparison of costs (C92). | proved | `C93_doubles`, `C93_exact`, `C93_maps` |
| C94 | Averaging series along their alignments | Model: `chargedCells` (weights and cells of an alignment, from stepsTaken). Proof: induction over paths - the cost of a path is the weighted sum over its cells whatever the local costs - so the old alignments are admissible for the new template (C01); regrouping by reference element; the mean minimises the weighted sum of squares, the median that of absolute differences. | proved | `C94_distance`, `C94_reestimate`, `C94_mean`, `C94_descent`, `C94_plain`, `C94_mean_plain`, `C94_median`, `C94_series`, `C94_bundled`, `C94_plain_not_symmetric2` |
| C95 | Alignments through a given pair | Model: warping paths with a given corner point (`coarse`). Proof: induction over paths - a path is cut at a corner into a path of the beginnings and one of the endings, costs add up - and the joining lemma of C68; optimality of the parts (C01). In doubles: C49 for the whole and the parts. | proved | `C95_through`, `C95_impossible`, `C95_on_optimal`, `C95_halves`, `C95_bundled`, `C95_doubles`, `C95_halves_doubles` |
| C96 | The compiler's fused multiply-add does not matter | Model: the two machines `binary64 true` and `binary64 false`, which differ in `mac` only. Proof: the products with a weight are exact, so the two recursions are the same system of equations, whose solution is unique (C01); the weights of the bundled patterns by evaluation; the rest from the error bound C49, applied to both. | proved | `C96_same_answer`, `C96_bundled`, `C96_unit`, `C96_binary`, `C96_close`, `C96_not_every_pattern` |
| C97 | Finding one occurrence after another | Model: a sequence of `dtw` calls whose cost matrices are masked by the `index2` of the earlier ones. Proof: the recursion is monotone when costs become dearer or NaN (C77), forbidden cells are never drawn (C58), a count of disjoint sets; the placements from C59. | proved | `C97_compare`, `C97_order`, `C97_disjoint`, `C97_room`, `C97_terminates`, `C97_room_rigid`, `C97_best_left`, `C97_complete`, `C97_bundled` |
| C98 | Comparing up to rotation | Model: the search of C59 with a reference that is written twice. Proof: the offsets 1..n of `rigid` are the n rotations; the rest is algebra of the sum of absolute differences under `List.rotate`. In doubles: C49_any_ends gives the path in exact arithmetic and its near-optimality. | proved | `C98_rotations`, `C98_which`, `C98_doubles`, `C98_series`, `C98_invariant`, `C98_symmetric`, `C98_triangle`, `C98_zero` |

## Trusted base

* Lean 4.33.0's kernel.
* Axioms: every property theorem depends on `propext`, `Classical.choice` and `Quot.sound` at most (`#print axioms`; a few
  need only `propext` and `Quot.sound`). No axiom is declared in this project; no compiled-code evaluation is used.
* Fidelity of the model to the source. Points to be aware of:
  * the object stores its weights as doubles, the kernel model reads the rational table entries; C67 proves that this makes
    no difference in double precision (`Stored.lean`);
  * a window function is called once on index arrays by `dtw` and on scalars by `countPaths`; one pointwise function
    models both (C60_elementwise justifies this for functions that work element by element with boolean or 0/1 values;
    `ArrayWindow.lean` models the two calls separately);
  * `numpy.sum` (used by `countPaths` with open ends and by `warpArea`) is numpy's pairwise summation, transcribed in
    `NpSum.lean`; the proofs use only that every element is added exactly once (`npSum_spec`), so they hold for any order;
  * external library behaviour (numpy `nanargmin`, `vstack`, `full_like`, scipy `interp1d`, `cdist` shape checks and four metrics,
    `genfromtxt` parsing and squeezing, Python's `float`, Python's `%g` formatting, numpy's array printing, Cython memoryview checks) is transcribed from its documentation/source.
* `tools/gen_patterns.py`, which copies the literal tables of `stepPattern.py` into `Verif/Tables.lean`.

## Behaviour of the real code established along the way (mostly negative theorems)

* `open_begin=True, distance_only=True` always raises AttributeError (C24_open_begin_always_fails).
* A 1×1 matrix holding +inf is "aligned" at distance +inf; elsewhere +inf cells are unreachable (C02, C58).
* With `open_begin` the window is evaluated on the (n+1)-row extended matrix, i.e. shifted by one query row
  (C37_cells_open_begin), while `countPaths` uses the unshifted sizes (C35_open_begin_mismatch).
* With `open_begin` the patterns whose rules all advance in the reference (`rigid`, mvm) can never match the first query
  element to reference element 0: an exact copy of the query at the very start is missed (C59 witness, C81_rigid_boundary),
  and open_begin / open_end are not mirror images (C56_rigid_not_exchanged).
* Open-begin with patterns all of whose rules advance in the reference (rigid, asymmetricP1…) can never match reference
  element 0, and may be worse than closed begin (C23_rigid_counterexample); typeIIc open-begin may skip query element 0,
  whereupon `warpArea` raises (C42_open_begin_error).
* Opening the beginning as well can make a call fail that succeeds with an open end alone: a slope-limited pattern needs
  `lo N <= M-1` instead of `lo (N-1) <= M-1` (C51_open_begin_iff, C51_open_end_iff; example in `Props/SlopeOpen.lean`).
* Windows are not enforced on intermediate points of multi-step rules nor on (0,0) (C10_intermediate_points_unchecked);
  itakuraWindow excludes (0,0) (C38_itakura_excludes_start).
* slantedBandWindow is centred on the line to (n,m), not (n-1,m-1); fractional widths may leave empty rows
  (C38_slanted_end, C38_slanted_fractional_gap); it is computed in doubles, which is exact for integer window sizes
  (C38_slanted_cells) but can misplace a cell on the very edge of a fractional one (C38_slanted_edge).
* `_symmetricVelichkoZagoruyko` has weight −1.001: negative distances (C14_velichko_negative) and countPaths fails
  (C35_velichko_fails).
* `warp()` does not interpolate gaps (C41_gap_not_interpolated…); warpArea's documentation example evaluates to 8 or 4
  depending on scipy, not 6 (C42_doc_example).
* countPaths counts in doubles: from 2^53 on the count is rounded, e.g. 48141245001931264 instead of 48141245001931263 for two
  series of 24 elements with the default pattern (C35_double_off_by_one); the relative error is bounded (C35_double_error);
  for two series of 648 or more elements it always raises OverflowError (C35_overflow).
* countPaths with `noWindow` and non-empty `window_args` raises TypeError although dtw accepted them
  (C35_stray_window_args).
* Integer-dtype or non-C-contiguous matrices raise ValueError, except that open_begin converts narrow dtypes (C47).
* Pattern ids out of range make the C kernel call `exit`, mis-ordered ids make it write out of bounds, N·M ≥ 2^31
  overflows (C29).
* Hint N+M divides by N+M although the path weight is N+M−1 (C19_constant_cost_NM).
* The mutable default `window_args={}` and the module's step-pattern objects are shared with results; mutating them
  changes later calls (C46_default_dict_leaks, C46_pattern_object_leaks).
* The console script shows only the first and last three points of a warping path of more than 500 points (numpy's
  print threshold; C48_output).  `print(pattern)` rounds weights to two digits, so that asymmetricP05, asymmetricP2 and
  `_symmetricVelichkoZagoruyko` are not shown exactly (C44_text_ambiguous).
* `--version` and `--help` win over missing files and unknown options (they act when met), but not over an ambiguous
  abbreviation `--=…` anywhere in the command line; a file whose name begins with a dash must be given after `--`
  (unless it is a number).  C48_version_help, C48_ambiguous, C48_separator.
* A one-number file makes the console script fail with ValueError (C48_single_number).
* dtwPlotTwoWay rejects one-dimensional xts/yts with IndexError (C45_twoway_rejects_vectors).
* 2^53 is the sharp bound for exact integer costs (C50_sharp).
* Open-begin matching with rigid can never report a placement starting at reference element 0
  (C59_rigid_misses_offset_zero); `_asymmetricP0b` has rules that charge only some of their cells, so a path can pass through a NaN
  cell (C58_uncharged_cell_visited).
* With both ends open a placement whose cost is a few times 2^-1074 can be preferred to a later free one, because its
  normalized cost underflows to 0 (C54_open_end_underflow).  `countPaths` of an open-begin problem may be positive although
  dtw finds no alignment (C36_open_begin_converse_fails).
* The default symmetric2 is not time-reversal invariant (C56_symmetric2_not_reversible); DTW is not a metric
  (C57_not_a_metric).
* The array returned by a user's window function is not compared with the cost matrix: too large means out-of-bounds
  writes in C (C60_too_large), same size but another shape gives the distance of the reshaped matrix next to a path of
  another cost (C60_reshape_witness).  Fractional window values are outside for `dtw`, inside for `countPaths`
  (C60_fractions).
* `_asymmetricItakura` carries hint NA although its weights justify N (C19_itakura_normalizable).
* The console script silently reads a word that is not a number as NaN (C64_only_numerals); with the default pattern it then
  fails with "No warping path found" (C64_unreadable), with patterns that may skip samples (typeII, asymmetric) it need not.
* With the default metric finite samples that differ by 2^512 (1.3e154) or more have infinite local cost, so a perfectly finite
  call ends in "No warping path found" (C66_overflow_fails); samples that differ by at most 2^-538 have cost 0, so different
  series can have distance 0 (C66_not_definite).  `dist_method="cityblock"` has neither problem on one-dimensional series.
* With `dist_method="chebyshev"` NaN samples are passed over instead of reported: a series of NaNs has distance 0 from every series of
  its length (C66_chebyshev_skips_nan, C66_chebyshev_ignores_nan).
* A user pattern whose weight rounds to -1 is read as having a starting point there (C67_rounded_marker).
* `from dtw import *` also rebinds `main`, `sys`, `numpy`, `scipy` … of the importing program (C72_star); `import dtw.warp as w` and the
  like give the function instead of the module (C72_import_as).
* `symmetricP0` is `symmetric2` itself: changing its weights in place changes the default pattern (C46_alias_leaks, C72_alias).
* The time stamps of the demonstration data are not exact: sample 2898 is at 4025 ms but is labelled otherwise (C73_not_exact).
* With the default symmetric2, averaging by the plain mean of `query[index1[index2 == j]]` can move the template away from the series
  (C94_plain_not_symmetric2: squared distance 6 becomes 27/4); the mean must count diagonal steps twice.

## Adequacy testing

`seeded/run_mutants.py` applies realistic bugs to a scratch copy of the model one at a time and rebuilds;
`seeded/LOG.jsonl` records, per mutant, the claim it breaks, the theorems that failed and the theorems added or
tightened because a mutant survived.

`lean/Verif/RepoTests.lean` runs the repository's own tests and doctests that state concrete results (`tests/test_cran.py`,
`tests/test_countPaths.py`, `tests/test_dtw_s.py`, the doctests of `countPaths`, `mvm` and `warpArea`) on the model, evaluated by
Lean's kernel in IEEE doubles, with and without fused multiply-add: the model returns what the tests expect.
`tools/conformance.sh` does the same with the tests on larger data (`tests/test_cli.py`: `Normalized distance: 0.1292`;
`tests/test_issues.py`, issue 5: distance 52.9795 and the expected `index2`) on the compiled model.  These are tests of the model,
not proofs, and no claim in MANIFEST.json rests on them.  The (skipped) doctest of `warpArea` depends on the
installed scipy: see the finding above.

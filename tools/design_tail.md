## Trusted base

* Lean 4.33.0's kernel.
* Axioms: every property theorem depends on `propext`, `Classical.choice` and `Quot.sound` at most (`#print axioms`; a few
  need only `propext` and `Quot.sound`). No axiom is declared in this project; no compiled-code evaluation is used.
* Fidelity of the model to the source. Points to be aware of:
  * the object stores its weights as doubles, the kernel model reads the rational table entries; C67 proves that this makes
    no difference in double precision (`Stored.lean`);
  * a window function is called once on index arrays by `dtw` and on scalars by `countPaths`; one pointwise function
    models both (C60_elementwise justifies this for functions that work element by element with boolean or 0/1 values;
    `ArrayWindow.lean` models the two calls separately);
  * `numpy.sum` (used by `countPaths` with open ends and by `warpArea`) is numpy's pairwise summation, transcribed in
    `NpSum.lean`; the proofs use only that every element is added exactly once (`npSum_spec`), so they hold for any order;
  * external library behaviour (numpy `nanargmin`, `vstack`, `full_like`, scipy `interp1d`, `cdist` shape checks and four metrics,
    `genfromtxt` parsing and squeezing, Python's `float`, Python's `%g` formatting, numpy's array printing, Cython memoryview checks) is transcribed from its documentation/source.
* `tools/gen_patterns.py`, which copies the literal tables of `stepPattern.py` into `Verif/Tables.lean`.

## Behaviour of the real code established along the way (mostly negative theorems)

* `open_begin=True, distance_only=True` always raises AttributeError (C24_open_begin_always_fails).
* A 1×1 matrix holding +inf is "aligned" at distance +inf; elsewhere +inf cells are unreachable (C02, C58).
* With `open_begin` the window is evaluated on the (n+1)-row extended matrix, i.e. shifted by one query row
  (C37_cells_open_begin), while `countPaths` uses the unshifted sizes (C35_open_begin_mismatch).
* With `open_begin` the patterns whose rules all advance in the reference (`rigid`, mvm) can never match the first query
  element to reference element 0: an exact copy of the query at the very start is missed (C59 witness, C81_rigid_boundary),
  and open_begin / open_end are not mirror images (C56_rigid_not_exchanged).
* Open-begin with patterns all of whose rules advance in the reference (rigid, asymmetricP1…) can never match reference
  element 0, and may be worse than closed begin (C23_rigid_counterexample); typeIIc open-begin may skip query element 0,
  whereupon `warpArea` raises (C42_open_begin_error).
* Opening the beginning as well can make a call fail that succeeds with an open end alone: a slope-limited pattern needs
  `lo N <= M-1` instead of `lo (N-1) <= M-1` (C51_open_begin_iff, C51_open_end_iff; example in `Props/SlopeOpen.lean`).
* Windows are not enforced on intermediate points of multi-step rules nor on (0,0) (C10_intermediate_points_unchecked);
  itakuraWindow excludes (0,0) (C38_itakura_excludes_start).
* slantedBandWindow is centred on the line to (n,m), not (n-1,m-1); fractional widths may leave empty rows
  (C38_slanted_end, C38_slanted_fractional_gap); it is computed in doubles, which is exact for integer window sizes
  (C38_slanted_cells) but can misplace a cell on the very edge of a fractional one (C38_slanted_edge).
* `_symmetricVelichkoZagoruyko` has weight −1.001: negative distances (C14_velichko_negative) and countPaths fails
  (C35_velichko_fails).
* `warp()` does not interpolate gaps (C41_gap_not_interpolated…); warpArea's documentation example evaluates to 8 or 4
  depending on scipy, not 6 (C42_doc_example).
* countPaths counts in doubles: from 2^53 on the count is rounded, e.g. 48141245001931264 instead of 48141245001931263 for two
  series of 24 elements with the default pattern (C35_double_off_by_one); the relative error is bounded (C35_double_error);
  for two series of 648 or more elements it always raises OverflowError (C35_overflow).
* countPaths with `noWindow` and non-empty `window_args` raises TypeError although dtw accepted them
  (C35_stray_window_args).
* Integer-dtype or non-C-contiguous matrices raise ValueError, except that open_begin converts narrow dtypes (C47).
* Pattern ids out of range make the C kernel call `exit`, mis-ordered ids make it write out of bounds, N·M ≥ 2^31
  overflows (C29).
* Hint N+M divides by N+M although the path weight is N+M−1 (C19_constant_cost_NM).
* The mutable default `window_args={}` and the module's step-pattern objects are shared with results; mutating them
  changes later calls (C46_default_dict_leaks, C46_pattern_object_leaks).
* The console script shows only the first and last three points of a warping path of more than 500 points (numpy's
  print threshold; C48_output).  `print(pattern)` rounds weights to two digits, so that asymmetricP05, asymmetricP2 and
  `_symmetricVelichkoZagoruyko` are not shown exactly (C44_text_ambiguous).
* `--version` and `--help` win over missing files and unknown options (they act when met), but not over an ambiguous
  abbreviation `--=…` anywhere in the command line; a file whose name begins with a dash must be given after `--`
  (unless it is a number).  C48_version_help, C48_ambiguous, C48_separator.
* A one-number file makes the console script fail with ValueError (C48_single_number).
* dtwPlotTwoWay rejects one-dimensional xts/yts with IndexError (C45_twoway_rejects_vectors).
* 2^53 is the sharp bound for exact integer costs (C50_sharp).
* Open-begin matching with rigid can never report a placement starting at reference element 0
  (C59_rigid_misses_offset_zero); `_asymmetricP0b` has rules that charge only some of their cells, so a path can pass through a NaN
  cell (C58_uncharged_cell_visited).
* With both ends open a placement whose cost is a few times 2^-1074 can be preferred to a later free one, because its
  normalized cost underflows to 0 (C54_open_end_underflow).  `countPaths` of an open-begin problem may be positive although
  dtw finds no alignment (C36_open_begin_converse_fails).
* The default symmetric2 is not time-reversal invariant (C56_symmetric2_not_reversible); DTW is not a metric
  (C57_not_a_metric).
* The array returned by a user's window function is not compared with the cost matrix: too large means out-of-bounds
  writes in C (C60_too_large), same size but another shape gives the distance of the reshaped matrix next to a path of
  another cost (C60_reshape_witness).  Fractional window values are outside for `dtw`, inside for `countPaths`
  (C60_fractions).
* `_asymmetricItakura` carries hint NA although its weights justify N (C19_itakura_normalizable).
* The console script silently reads a word that is not a number as NaN (C64_only_numerals); with the default pattern it then
  fails with "No warping path found" (C64_unreadable), with patterns that may skip samples (typeII, asymmetric) it need not.
* With the default metric finite samples that differ by 2^512 (1.3e154) or more have infinite local cost, so a perfectly finite
  call ends in "No warping path found" (C66_overflow_fails); samples that differ by at most 2^-538 have cost 0, so different
  series can have distance 0 (C66_not_definite).  `dist_method="cityblock"` has neither problem on one-dimensional series.
* With `dist_method="chebyshev"` NaN samples are passed over instead of reported: a series of NaNs has distance 0 from every series of
  its length (C66_chebyshev_skips_nan, C66_chebyshev_ignores_nan).
* A user pattern whose weight rounds to -1 is read as having a starting point there (C67_rounded_marker).
* `from dtw import *` also rebinds `main`, `sys`, `numpy`, `scipy` … of the importing program (C72_star); `import dtw.warp as w` and the
  like give the function instead of the module (C72_import_as).
* `symmetricP0` is `symmetric2` itself: changing its weights in place changes the default pattern (C46_alias_leaks, C72_alias).
* The time stamps of the demonstration data are not exact: sample 2898 is at 4025 ms but is labelled otherwise (C73_not_exact).
* With the default symmetric2, averaging by the plain mean of `query[index1[index2 == j]]` can move the template away from the series
  (C94_plain_not_symmetric2: squared distance 6 becomes 27/4); the mean must count diagonal steps twice.

## Adequacy testing

`seeded/run_mutants.py` applies realistic bugs to a scratch copy of the model one at a time and rebuilds;
`seeded/LOG.jsonl` records, per mutant, the claim it breaks, the theorems that failed and the theorems added or
tightened because a mutant survived.

`lean/Verif/RepoTests.lean` runs the repository's own tests and doctests that state concrete results (`tests/test_cran.py`,
`tests/test_countPaths.py`, `tests/test_dtw_s.py`, the doctests of `countPaths`, `mvm` and `warpArea`) on the model, evaluated by
Lean's kernel in IEEE doubles, with and without fused multiply-add: the model returns what the tests expect.
`tools/conformance.sh` does the same with the tests on larger data (`tests/test_cli.py`: `Normalized distance: 0.1292`;
`tests/test_issues.py`, issue 5: distance 52.9795 and the expected `index2`) on the compiled model.  These are tests of the model,
not proofs, and no claim in MANIFEST.json rests on them.  The (skipped) doctest of `warpArea` depends on the
installed scipy: see the finding above.

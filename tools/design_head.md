# Formal model of dtw-python in Lean 4 — design

(Generated by `tools/gen_design.py` from `tools/design_head.md`, `tools/plan.json`, `tools/design_tail.md` and
`MANIFEST.json`.)

## What is modelled, and how

Definitions are function-by-function translations; each carries a comment with the file and lines in `/repo/dtw` it
models, and the word SIMPLIFICATION wherever it deviates.

| code | Lean module | how |
|---|---|---|
| doubles (`double`, numpy float64) | `Verif/Num.lean` | `F64 = nan / ninf / fin q / pinf`, `q : ℚ`. An operation is the exact rational operation followed by a rounding function that is a *parameter* (`Arith`: monotone, never NaN, fixes 0) and an optional fused multiply-add. Unless a theorem says `Arith.exact` it holds for every such arithmetic. `-0.0 = 0.0`, NaN payloads identified; that `dtw()` cannot tell them apart is C87. |
| IEEE-754 binary64, round to nearest even | `Verif/Binary64.lean` | `rnd64` constructed from 53-bit significands, subnormals, overflow; proved to be an `Arith`, to be the nearest double, ties to even (C49). |
| 64-bit patterns, signed zeros, NaN payloads | `Verif/Bits.lean` | `dtw()` and the kernel a second time on machine values of any type, with machine operations only required to agree with the model *after* forgetting signs of zeros and payloads; refinement proved (C87). The local cost function is required to respect the same identification. |
| stepPattern.py:274-276, storage of weights | `Verif/Stored.lean` | Weights rounded to doubles when the object is made; proved irrelevant (C67). |
| exceptions | `Verif/Err.lean` | Python exceptions, C `exit()`, undefined behaviour and divergence are values of type `Err`; nothing in the model is partial. |
| `dtw_core.c` (`argmin`, `computeCM`) | `Verif/Kernel.lean` | flat C buffers are lists; every read/write is bounds-checked (violation = `ub`), every `int` expression is range-checked, `error()` = `cExit`. |
| `_dtw_utils.pyx` `_computeCM_wrapper`, `_globalCostMatrix.py` | `Verif/Kernel.lean`, `Verif/Dtw.lean` | transposed dimensions, window matrix, seed, buffer checks. |
| `stepPattern.py` | `Verif/Pattern.lean`, `Verif/Tables.lean` | `StepPattern` and its methods, the `_P` builder, `rabinerJuangStepPattern`; the 40+ bundled tables are generated verbatim from the source text by `tools/gen_patterns.py`. |
| `mvm.py` | `Verif/Pattern.lean` | any elasticity. |
| `window.py`, `_canonicalizeWindowFunction` | `Verif/Window.lean` | four windows, unknown names, arbitrary user functions. |
| `_backtrack.py`, `dtw.py` | `Verif/Dtw.lean` | `dtw : Arith → Args → Except Err Result`, every option. |
| `countPaths.py` | `Verif/CountPaths.lean` | the loop over an n×m float matrix, its `int()` conversion. |
| `warp.py`, `warpArea.py` | `Verif/Warp.lean` | with two models of `scipy.interpolate.interp1d` (both implementations scipy has shipped). |
| `dtwPlot.py`, `StepPattern.plot` | `Verif/Plot.lean` | the data sent to matplotlib (`Drawing`), errors, dispatch. |
| `dtw` on a heap of mutable objects | `Verif/Heap.lean` | which arrays are copied/aliased/written, histories of calls with arbitrary mutation between them. |
| several threads, interruption | `Verif/Threads.lean` | `dtw` as a program whose steps are single accesses to objects; arbitrary schedules. |
| `__init__.py`, module-level statements of every module | `Verif/Imports*.lean`, `Verif/Sources.lean` | Python's import system as far as this package is concerned; other packages import without failure and bind nothing in `dtw`. `tools/gen_sources.py` extracts the statements from /repo. |
| numpy memory layout and dtype of the matrix argument | `Verif/Buffer.lean` | strided arrays, Cython's buffer check, `vstack`, `array(order='K')`. |
| window functions on index arrays vs. integers | `Verif/ArrayWindow.lean` | returned object, its shape and order, the int32 cast, truth values. |
| `__main__.py` | `Verif/Cli.lean` | argument vector, parsed files, output text. |
| `argparse` (CPython 3.11) as used by `__main__.py` | `Verif/Argparse.lean` | the parser for two positionals, `-h`, `--version`, `--step_pattern`: classification of words, abbreviations, `=`, `--`, negative numbers, left-over words. Compared outside Lean with the real argparse on 150000 random command lines (no difference). |
| `numpy.genfromtxt` on ASCII text, Python's `float` | `Verif/TextFile.lean` | newline translation, comments, splitting, numerals; `Verif/SpecFile.lean` says what a file of numbers is. |
| `_test_computeCM`, `_test_computeCM2`, `test_computeCM` (self-tests) | `Verif/SelfTest.lean` | without the printing. |
| `dtw_test_data.py` | `Verif/DemoData.lean` | both functions; `numpy.linspace`, `arange`, `fromstring` in doubles. |
| scipy's `cdist` metrics euclidean (the default), sqeuclidean, cityblock, chebyshev, in doubles | `Verif/Cdist.lean` | square root correctly rounded; elsewhere the metric stays an arbitrary function of two rows. |
| `StepPattern.__str__`, `DTW.__repr__`, Python's `%g`, numpy's text of an integer matrix | `Verif/Format.lean` | character by character; `Verif/SpecText.lean` is an independent reader of these texts. |

Specifications, separate from the model: `Verif/Spec.lean` (what a step pattern means, admissible warping paths and their
cost, curves, counting, the recursion, what a call is about), `Verif/SpecTextbook.lean` (textbook DTW: curves and
warping functions, no step-pattern tables), `Verif/SpecDoubles.lean` (rounding-error bounds), `Verif/SpecText.lean` (reading
printed numbers, equations and matrices), `Verif/SpecSeries.lean` (series of numbers).

Not modelled: matplotlib rendering, argparse's help text, non-ASCII text in input files,
sine, cosine and random numbers (parameters of the model of `dtw_test_data.py`), the other metrics of `cdist` (arbitrary functions of two rows), memory exhaustion and stack limits
(`alloca`), races inside a single array access, numpy warnings, signs of zeros and NaN payloads in the parts outside `dtw()` (for `dtw()` itself see C87).

## Method

1. `computeCM` (flat, transposed, mutable) refines a two-dimensional Bellman system (`Bellman` in Spec.lean): loop
   invariant over the row-major sweep (`Proofs/KernelProof*.lean`).
2. From the Bellman system alone, by well-founded induction on cells: soundness, optimality with respect to inductively
   defined warping paths, uniqueness (hence transposition, rule order, prefix laws), monotonicity, homogeneity, shifts,
   rounding-error propagation.
3. `_backtrack` replays the direction matrix into the specification's curve, with a termination measure.
4. `dtw` is reduced to these (`dtw_closed`, `dtw_open`, `closed_ok`, `open_ok`); property theorems combine them.
5. Facts about the finitely many bundled tables are proved by kernel evaluation (`decide +kernel`) over the *complete*
   table; constructors with parameters (`mvmStepPattern(e)`, builder chains) by induction.

Property theorems are the `Cnn_…` theorems in `Verif/Props/*.lean`; helper lemmas are in `Verif/Proofs/*.lean`. Every
hypothesis set is met by concrete calls: `example`s beside the theorems and `Props/Witnesses.lean`.


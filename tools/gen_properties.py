#!/usr/bin/env python3
"""Writes ../properties.jsonl (kept as a script so that the list is easy to edit)."""
import json, os
P = []
def p(title, statement, quantifier, why, anchors):
    P.append(dict(id="C%02d" % (len(P)+1), title=title, statement=statement,
                  quantifier=quantifier, why_tests_cant=why, anchors=anchors))

p("Reported distance is optimal",
  "When dtw() (closed ends) returns, `distance` is the accumulated cost of some warping path that the step pattern and the window admit from (0,0) to (N-1,M-1), and no admissible path has a smaller accumulated cost.",
  "every local cost matrix (any size, any doubles including NaN/inf), every well-formed step pattern, every window, every monotone rounding mode with or without fused multiply-add",
  "the number of warping paths grows exponentially; a test can only compare with brute force on tiny matrices",
  ["dtw/dtw.py:dtw", "dtw/dtw_core.c:computeCM", "dtw/_globalCostMatrix.py:_globalCostMatrix"])
p("'No warping path' is raised exactly when there is none",
  "dtw() (closed ends) raises ValueError('No warping path found ...') iff no admissible path reaches (N-1,M-1) with a usable (not NaN, below +inf) cost (single exception: a 1x1 matrix holding +inf returns distance +inf); it never returns a NaN distance.",
  "every cost matrix, well-formed step pattern and window",
  "absence of a path is a universally quantified statement over all paths",
  ["dtw/dtw.py:dtw", "dtw/dtw_core.c:computeCM"])
p("The returned path realises the returned distance",
  "Replaying `stepsTaken` from (0,0) with the local costs gives, operation for operation in floating point, exactly `distance`; so the returned path is an optimal one.",
  "every successful closed-begin call of dtw() without distance_only",
  "couples two separately computed outputs (cost matrix and backtrack) for all inputs",
  ["dtw/_backtrack.py:_backtrack", "dtw/dtw.py:dtw"])
p("Path end points",
  "index1/index2 (and index1s/index2s) start at (0,0) and end at (N-1, jmin); jmin = M-1 unless open_end.",
  "every successful closed-begin call",
  "must hold for every matrix, pattern and window",
  ["dtw/_backtrack.py:_backtrack", "dtw/dtw.py:dtw"])
p("Warping curve is monotone and in range",
  "index1 and index2 have the same length, are non-decreasing, and every entry lies in 0..N-1 / 0..M-1; so do index1s and index2s, whose consecutive points always differ.",
  "every successful call, open begin included (there the curve starts at the first matched point)", "quantifies over every produced path",
  ["dtw/_backtrack.py:_backtrack"])
p("index1s/index2s/stepsTaken describe the same rule sequence",
  "stepsTaken lists 1-based rules of the step pattern; consecutive points of (index1s,index2s) differ by exactly the origin delta of the corresponding rule; (index1,index2) is the same curve with each rule's intermediate points spliced in, so (index1s,index2s) is a sublist of it and len(stepsTaken)=len(index1s)-1.",
  "every successful call (with an open begin the curve starts at the first matched point instead of (0,0))", "relates four outputs for every input",
  ["dtw/_backtrack.py:_backtrack"])
p("Every cost-matrix cell obeys the step-pattern recursion",
  "With keep_internals, each in-window cell of costMatrix other than the seed is the minimum, over the rules whose origin is inside the matrix, of the origin's cumulative cost plus the weighted local costs of the rule (NaN/+inf candidates ignored; NaN if nothing remains).",
  "every cell of every matrix, every pattern and window",
  "tests check a handful of hand-computed matrices",
  ["dtw/dtw_core.c:computeCM", "dtw/_dtw_utils.pyx:_computeCM_wrapper", "dtw/stepPattern.py:StepPattern._get_p"])
p("Direction matrix names the first minimising rule",
  "directionMatrix[i,j] is the 1-based index of the first rule attaining costMatrix[i,j], and the integer-NA sentinel (-2147483648) exactly on cells that were seeded, out of window or unreachable.",
  "every cell of every matrix", "tie-breaking must hold in every cell",
  ["dtw/dtw_core.c:argmin", "dtw/dtw_core.c:computeCM"])
p("Every cell is optimal for its partial alignment",
  "costMatrix[i,j] is the least cost of an admissible partial path from (0,0) to (i,j), and NaN iff there is no usable one.",
  "every cell", "exponentially many partial paths", ["dtw/dtw_core.c:computeCM"])
p("Global window is respected",
  "Every point of (index1s,index2s) except the start (0,0) satisfies the window function, and costMatrix is NaN on every out-of-window cell except (0,0). (Intermediate points of multi-step rules are NOT checked by the code: negative witness.)",
  "every window function, pattern and matrix, closed begin", "all paths, all windows",
  ["dtw/dtw_core.c:computeCM", "dtw/window.py"])
p("Enlarging the window never hurts",
  "If every cell allowed by window A is allowed by window B, then whenever dtw succeeds with A it succeeds with B and the distance with B is not larger.",
  "every pair of nested windows, every matrix and pattern", "relational property over pairs of runs",
  ["dtw/dtw_core.c:computeCM", "dtw/dtw.py:dtw"])
p("Distance is monotone in the local costs",
  "Raising local costs pointwise never lowers the distance (with an open end: the normalized distance), for patterns with non-negative weights: all bundled ones except the private _symmetricVelichkoZagoruyko, in exact and in IEEE double arithmetic.",
  "all pairs of pointwise ordered finite cost matrices, any rounding mode for which products round monotonically",
  "relational property over pairs of runs", ["dtw/dtw_core.c:computeCM"])
p("Distance is homogeneous",
  "Multiplying all local costs by c>0 multiplies every cumulative cost and the distance by c and leaves the path unchanged, in exact arithmetic; in doubles too, to the last bit, if c is a power of two from 2^-50 to 2^50, the costs are 0 or from 2^-900 to 2^900 and the weights 0 or from 2^-10 to 2^9 (the bundled patterns without negative weights). Negative: other factors round.",
  "all finite matrices, all c>0", "relational over pairs of runs", ["dtw/dtw_core.c:computeCM"])
p("Non-negative costs give a non-negative distance",
  "If local costs are >= 0 and weights >= 0 (all bundled patterns except the private _symmetricVelichkoZagoruyko, negative witness) the distance and all cumulative costs are >= 0.",
  "all such matrices and patterns", "all inputs", ["dtw/dtw_core.c:computeCM"])
p("Self-alignment costs zero",
  "If the local cost matrix is square, non-negative and zero on its diagonal, and the step pattern has a diagonal (1,1) rule that only charges the arrival cell, closed-end dtw whose window contains the diagonal returns distance exactly 0, in exact and in IEEE double arithmetic.",
  "every such matrix and every bundled pattern with that rule", "all inputs", ["dtw/dtw.py:dtw", "dtw/stepPattern.py"])
p("Transposition law",
  "dtw(lm.T, step_pattern.T()) with the transposed window gives the transposed costMatrix and directionMatrix, the same distance, the same stepsTaken and index1/index2 exchanged.",
  "all matrices, well-formed patterns and windows (bit-for-bit in any rounding mode)",
  "relational over pairs of runs; also the loop order differs", ["dtw/stepPattern.py:StepPattern.T", "dtw/_dtw_utils.pyx:_computeCM_wrapper"])
p("Symmetric patterns give a symmetric distance",
  "For symmetric1, symmetric2, symmetricP0/P05/P1/P2, and the unbiased Rabiner types, dtw(lm).distance = dtw(lm.T).distance (so d(x,y)=d(y,x) for a symmetric local distance).",
  "all matrices, every listed pattern, any rounding mode", "relational over pairs of runs",
  ["dtw/stepPattern.py:symmetric2", "dtw/dtw.py:dtw"])
p("normalizedDistance follows the normalization hint",
  "normalizedDistance = distance/N for hint 'N', distance/(N+jmin+1) for 'N+M', distance/(jmin+1) for 'M', and NaN for 'NA'.",
  "every successful call", "every input and option", ["dtw/dtw.py:dtw"])
p("Hints are sound: path weight depends only on the end points",
  "For every bundled pattern with hint 'N' the weights along any path to (i,j) total i+1, for hint 'N+M' they total i+j+1 (mori2006, hint 'M': 3j+1); consequently a constant local cost c gives distance c*N resp. c*(N+M-1), and adding c to all local costs shifts the distance by c times that total. Conversely the bundled patterns without a hint ('NA') cannot be normalized by any function of the end points, except the private _asymmetricItakura.",
  "every path, every bundled pattern, every matrix (exact arithmetic)", "all paths",
  ["dtw/stepPattern.py", "dtw/dtw.py:dtw"])
p("Open-end picks the best normalized prefix",
  "With open_end, jmin is the first reference index minimising the normalized last row; the result is never worse (normalized) than the closed-end one, and hint 'NA' is rejected with ValueError.",
  "every matrix, pattern, window", "all prefixes of all inputs", ["dtw/dtw.py:dtw"])
p("Prefix consistency",
  "Restricting the reference (and/or query) to a prefix restricts the cumulative cost matrix to the corresponding sub-matrix; hence open-end distance at jmin equals the closed-end distance against reference[:jmin+1] (windows that do not look at the sizes).",
  "every matrix and prefix length", "relational over pairs of runs", ["dtw/dtw.py:dtw", "dtw/dtw_core.c:computeCM"])
p("Open-begin is optimal over all starting points",
  "With open_begin (pattern hint 'N') the distance is the least cost over admissible paths that start, at zero cost, at any column of a null row placed before the query; other hints are rejected with ValueError; returned indices stay in range and end at (N-1,jmin).",
  "every matrix, hint-N pattern, window", "all starting points and paths", ["dtw/dtw.py:dtw"])
p("Open-begin never beats itself: relation with the closed-begin alignment",
  "For patterns owning a rule (1,0) that charges exactly the arrival cell, open_begin never gives a larger distance than closed begin. (False for patterns such as `rigid` or asymmetricP1, which can never match reference element 0: negative witness.)",
  "every matrix, exact arithmetic or any rounding with 0+x=x", "relational", ["dtw/dtw.py:dtw", "dtw/stepPattern.py:rigid"])
p("distance_only changes nothing but the missing path",
  "distance_only=True yields the same distance, normalizedDistance, jmin and matrices as the full run and no index/stepsTaken fields. (With open_begin the real code always fails with AttributeError: negative theorem.)",
  "every input and option", "relational over pairs of runs", ["dtw/dtw.py:dtw"])
p("keep_internals only adds fields",
  "keep_internals does not change success, distance, path or any other field; it only adds costMatrix, directionMatrix, localCostMatrix (and query/reference for the two-series call).",
  "every input and option", "relational", ["dtw/dtw.py:dtw"])
p("Two-series call equals one-matrix call",
  "dtw(x,y,dist_method) gives the same alignment as dtw(cdist(x,y)); one-dimensional series are treated as one-column matrices; element [i,j] of the local cost is the distance of x[i] and y[j].",
  "every pair of series, every local distance", "relational", ["dtw/dtw.py:dtw"])
p("asymmetric matches each query element exactly once",
  "With step_pattern=asymmetric, index1 is 0,1,...,N-1 and index2 advances by at most 2 per query element; a closed-end alignment of finite costs exists iff M-1 <= 2(N-1) (in doubles: of costs whose total cannot overflow).",
  "every matrix", "all inputs", ["dtw/stepPattern.py:asymmetric", "dtw/_backtrack.py:_backtrack"])
p("Continuous patterns skip nothing",
  "For symmetric1/2, symmetricP*, asymmetricP* and typeI* patterns consecutive points of (index1,index2) differ by 0 or 1 in each coordinate (not both 0), hence every query and reference index up to the end point is matched.",
  "every path, every listed pattern", "all inputs", ["dtw/stepPattern.py", "dtw/_backtrack.py:_backtrack"])
p("Kernel memory safety",
  "For well-formed patterns and N*M < 2^31 the C kernel performs only in-bounds reads/writes, no signed-int overflow and never calls exit(); mis-ordered or out-of-range pattern ids are shown to trigger exit or out-of-bounds writes.",
  "every size, matrix, window and well-formed pattern", "undefined behaviour is silent in tests", ["dtw/dtw_core.c:computeCM"])
p("Backtracking terminates",
  "_backtrack's while loop always ends, after at most N+M iterations, without exception, for well-formed patterns.",
  "every matrix, pattern, window", "termination", ["dtw/_backtrack.py:_backtrack"])
p("Step-pattern transpose is an involution",
  "p.T().T() has the same rows and hint as p; T swaps the roles of query and reference, exchanges hints N and M and fixes N+M and NA.",
  "every step pattern (well-formed or not)", "all patterns", ["dtw/stepPattern.py:StepPattern.T"])
p("All bundled and constructed patterns are well-formed",
  "Every bundled pattern, mvmStepPattern(e) for every e>=1, and rabinerJuangStepPattern for every type 1..7, subtype a..d, smoothed or not, satisfies the well-formedness used by all the other theorems; unsupported arguments raise instead of returning a pattern.",
  "the complete pattern catalogue and every elasticity", "elasticity is unbounded; the catalogue is finite but is covered completely", ["dtw/stepPattern.py", "dtw/mvm.py:mvmStepPattern"])
p("Rabiner-Myers patterns are Rabiner-Juang patterns",
  "typeI?/typeI?s equal rabinerJuangStepPattern(2,?), and symmetric1/2, symmetricP*, asymmetricP*, typeII?, typeIIIc, typeIVc give the same error or the same distances and matrices as the corresponding rabinerJuangStepPattern, on every input and with every option.",
  "every matrix and window, any rounding", "all inputs", ["dtw/stepPattern.py:rabinerJuangStepPattern"])
p("Rule order does not affect the distance",
  "Permuting the rules of a step pattern changes neither the cumulative cost matrix nor the distance nor success (only tie-breaking).",
  "every pattern and permutation, every input, any rounding", "relational", ["dtw/dtw_core.c:argmin"])
p("countPaths counts exactly the admissible paths",
  "countPaths returns the number of rule sequences from (0,0) (open_begin: from any cell of the first query row) to (N-1,M-1) (open_end: to any cell of the last query row) whose every arrival cell satisfies the window; in IEEE doubles too as long as M*|rules|^(N+M-2) <= 2^53; for symmetric1/symmetric2 without window it is the Delannoy number D(N-1,M-1). At any size, in doubles, countPaths either returns a number within relative error 2E/2^53 of the true count, E = |rules|(N+M-2) (+ M-1 with open end), or raises OverflowError, and then the true count is at least 2^1022; it does raise OverflowError for any two series of 648 or more elements with symmetric1/symmetric2, no window. Negative: beyond 2^53 the count is rounded (two series of 24 elements, symmetric2: one too many).",
  "every size, well-formed pattern and window", "exponential number of paths", ["dtw/countPaths.py:countPaths"])
p("countPaths and dtw agree on feasibility",
  "With finite costs and exact arithmetic - and in double precision if the costs' total cannot overflow - dtw (closed begin) succeeds iff countPaths is positive. With an open begin, success implies a positive count for patterns that consume at most one query element per rule; the converse fails (countPaths starts in row 0, dtw in a null row before it).",
  "every finite matrix, pattern and window", "relates two algorithms on all inputs", ["dtw/countPaths.py:countPaths", "dtw/dtw.py:dtw"])
p("Sakoe-Chiba band semantics",
  "sakoeChibaWindow admits exactly |i-j|<=window_size; if |N-M|>window_size closed-end dtw always raises; otherwise (finite costs, symmetric1/symmetric2) it always succeeds; in double precision too, if the costs' total cannot overflow.",
  "every size, band width and matrix", "all sizes", ["dtw/window.py:sakoeChibaWindow"])
p("Itakura and slanted-band window semantics",
  "itakuraWindow never admits (0,0) although alignments start there; closed-end alignment is impossible if M-1>=2(N-1) or N-1>2(M-1) (N,M>1). slantedBandWindow is a band around j=i*M/N; for N=M it coincides with the Sakoe-Chiba band; the final cell is admitted iff |M/N-1|<=window_size. The band is computed in double precision: with an integer window_size it is exactly the set of cells of the real-number formula, with any other the rounding errors amount to at most M*2^-51.",
  "every size and window size", "all sizes", ["dtw/window.py:itakuraWindow", "dtw/window.py:slantedBandWindow"])
p("No window means no constraint",
  "window_type None, 'none', noWindow and any always-true window function give identical results.",
  "every input", "relational", ["dtw/window.py:noWindow", "dtw/_globalCostMatrix.py:_globalCostMatrix", "dtw/dtw.py:_canonicalizeWindowFunction"])
p("Unknown names are rejected",
  "An unknown window_type string, window arguments the window does not take, an unknown step-pattern name, Rabiner-Juang type or subtype, or plot type makes the call raise; it is never silently replaced by a default.",
  "every string outside the catalogue", "infinitely many strings", ["dtw/dtw.py:_canonicalizeWindowFunction", "dtw/dtw.py:_canonicalizeStepPattern", "dtw/stepPattern.py:rabinerJuangStepPattern", "dtw/dtwPlot.py:dtwPlot"])
p("warp returns one valid index per target point",
  "If every index 0..jmax of the target axis occurs in the alignment, warp(d) returns jmax+1 integers, the k-th being the truncated mean of the indices matched to k, so within range of the source series and non-decreasing.  This holds in double precision too, for results of dtw() on series whose lengths sum to at most 2^26: rounding never moves a mean across an integer.  (Documented interpolation of gaps is NOT what the code does: negative witness.)",
  "every alignment", "all alignments", ["dtw/warp.py:warp", "dtw/warp.py:_solveTies"])
p("warpArea is a non-negative deviation from the diagonal",
  "warpArea(d) is >= 0, is 0 iff the interpolated warping curve lies on the corner-to-corner diagonal, and for curves matching every query index it equals the sum over query indices of |matched reference index - i*(M-1)/(N-1)|, where of several matches the last counts if interpolation is numpy's (current scipy) and the first with older scipy. In double precision the result is the same, exactly (current scipy), whenever N-1 divides M-1 (e.g. equal lengths) and N*M <= 2^53. For any other lengths it differs from the exact area by at most N^2*M*2^-50.",
  "every alignment (exact arithmetic, and doubles where stated)", "all alignments", ["dtw/warpArea.py:warpArea"])
p("Minimum variance matching",
  "With mvmStepPattern(e), index1 is 0..N-1, index2 is strictly increasing with jumps of at most e, and the distance is the plain sum of the matched local costs.",
  "every elasticity and matrix", "unbounded elasticity", ["dtw/mvm.py:mvmStepPattern"])
p("print(stepPattern) describes the recursion that is computed",
  "Reading the printed equation g[i,j] = min(...) as a recurrence gives exactly the recurrence satisfied by costMatrix. The text shows every weight to two significant digits: for patterns whose weights have at most two (all bundled ones except asymmetricP05, asymmetricP2 and _symmetricVelichkoZagoruyko) the text determines the pattern.",
  "every well-formed pattern, matrix and window", "all inputs", ["dtw/stepPattern.py:StepPattern.__str__", "dtw/stepPattern.py:StepPattern._extractpattern"])
p("Plot helpers only use valid data",
  "dtwPlot dispatches each documented type and rejects others; the match lines drawn by the two-way/three-way plots for a default or integer match_indices connect genuine path points and include first and last; density normalisation divides each cell by its path weight (hint).",
  "every alignment", "all alignments", ["dtw/dtwPlot.py"])
p("Calls are independent and inputs are not modified",
  "A dtw() call never changes its input arrays and its result does not depend on earlier calls, for every history of calls and of mutations of objects that the call does not reach; mutating the windowArgs or stepPattern of a returned object, which are the default argument and the module's pattern object themselves, changes later calls (negative witnesses). The arrays of a returned object (index vectors and matrices) are pairwise different objects, and overwriting one leaves every other attribute as it was.",
  "every history of calls", "histories are unbounded", ["dtw/dtw.py:dtw"])
p("Array layout and dtype never change the answer silently",
  "A local cost matrix that is not C-contiguous float64 is either rejected with ValueError or gives the same result as its C-contiguous float64 copy.",
  "every matrix and layout flag", "all inputs", ["dtw/_dtw_utils.pyx:_computeCM_wrapper", "dtw/dtw.py:dtw"])
p("Command line reports the library result",
  "The console script prints the distance and normalized distance (each as the nearest four-digit decimal) and the warping path (complete up to 500 points, else its first and last three) of dtw(query, reference, step_pattern) and fails on unknown patterns. Numbers are in scientific notation exactly when shown below 0.0001 or not below 10000, without superfluous zeros, points or exponent digits; no line of the printed path is longer than 75 characters, and a path whose rows fit in a line is shown as two bracketed lines of right-aligned columns. The two file names and step-pattern options (--step_pattern X, --step_pattern=X, or any abbreviation from --s on) may stand in any order, the last pattern winning, the default symmetric2; any number of file names other than two is refused with exit code 2, as is an unknown option wherever it stands, before any file is opened; words after -- are file names whatever they look like; --version and --help (or an abbreviation) end the script whatever stands beside them, unless an ambiguous --=... does; an option without its value, or with a value it does not take, gives exit code 2.",
  "every pair of input files (as parsed series) and every command line of the stated forms", "all inputs", ["dtw/__main__.py:main2", "dtw/__main__.py:main"])
p("Double-precision accuracy of the distance",
  "With local costs that are zero or between 2^-1000 and 2^900 and any bundled pattern with non-negative weights, the double-precision distance of a closed alignment differs from the exact one by a relative error of at most (3(N+M)+2)*2^-52, an alignment exists exactly when it does in exact arithmetic, and the returned path is optimal up to a factor 1+(3(N+M)+2)*2^-50; with or without fused multiply-add. With open ends too (costs zero or between 2^-900 and 2^900): every entry of the returned cost matrix and the normalized distance are within (3(N+M)+6)*2^-52 of their exact values, and the path returned, ending where the call chose to end, has an exact normalized cost within a factor 1+(3(N+M)+6)*2^-50 of the best over all ends.",
  "every such matrix, size, window and pattern, IEEE-754 binary64 round-to-nearest-even", "error bound over all inputs and sizes", ["dtw/dtw_core.c:computeCM", "dtw/dtw.py:dtw"])
p("Integer costs are aligned exactly",
  "If the local costs and the pattern's weights are natural numbers and no path can cost more than 2^53 (with an open end: 2^52/(N+M)), double-precision dtw returns exactly what exact arithmetic would return - success or error, distance, end point, path, cost matrix, direction matrix - with any combination of open ends; only the normalized distance is rounded, once. (2^53 is sharp; with an open end a tie created by rounding can select another end point: negative witness.)",
  "every such matrix, size, window and pattern", "all inputs", ["dtw/dtw_core.c:computeCM"])
p("Local slope constraints",
  "With a slope-limited step pattern (symmetricP05/P1/P2, the asymmetric and Rabiner-Juang ones, rigid, asymmetric, mvm) the slope between any two corner points of the returned path lies within the pattern's slope range (e.g. P/(P+1) .. (P+1)/P), so a closed path stays in the corresponding parallelogram; a closed alignment whose overall slope (M-1)/(N-1) is outside the range is rejected with ValueError, and without window and with finite costs one exists exactly when the slope is within the range (always, for the unrestricted patterns). With an open end only the lower bound matters, lo(N-1) <= M-1; with an open beginning (hint N) an alignment exists exactly when lo N <= M-1, whether the end is open or not (mvm: N <= M, respectively N < M).",
  "every matrix, size, window and bundled pattern", "all sizes", ["dtw/stepPattern.py:symmetricP05", "dtw/stepPattern.py:symmetricP1", "dtw/stepPattern.py:symmetricP2", "dtw/mvm.py:mvmStepPattern", "dtw/dtw.py:dtw"])
p("Rabiner-Juang slope weighting",
  "rabinerJuangStepPattern(ptype, slope_weighting, smoothed) returns the documented family of elementary moves with the documented weights: (a) min(Di,Dj), (b) max(Di,Dj), (c) Di, (d) Di+Dj per elementary step, averaged along the rule when smoothed, with hint NA/NA/N/N+M; smoothing never changes a rule's total weight, and the total of (c)/(d) is the query/query+reference displacement.",
  "every (type, sub-type, smoothing) and, for the builder, every chain of steps", "the builder accepts chains of any length; all 56 patterns", ["dtw/stepPattern.py:rabinerJuangStepPattern", "dtw/stepPattern.py:_P"])
p("Textbook meaning of the named patterns",
  "With exact arithmetic the distance with each named pattern, each rabinerJuangStepPattern(type, weighting, smoothed) and mvm is the minimum of the corresponding textbook cost (sequences of the family's productions, each step weighted by min/max/query/query+reference displacement, averaged when smoothed; for symmetric1/2, asymmetricP0 and symmetricP05/P1/P2 also as a weighted sum over warping curves with Sakoe-Chiba's slope constraint; for asymmetric, rigid and mvm as a sum over warping functions) over all those between the end points that stay in the window, stated without reference to step-pattern tables. In double precision (costs 0 or within 2^+-900, no negative weights) the call succeeds in the same cases and the distance is that minimum up to a relative error (3(N+M)+2)*2^-52.",
  "every matrix, size and window", "the minimum ranges over exponentially many curves", ["dtw/stepPattern.py", "dtw/mvm.py:mvmStepPattern", "dtw/dtw.py:dtw"])
p("Zero distance exactly for time-stretched copies",
  "With non-negative local costs the distance is 0 if some warping curve has only zero costs - in particular for a time-stretched copy of the query - in any arithmetic; conversely with symmetric1/symmetric2 a zero distance implies such a curve, in double precision too: rounding never creates or hides a zero distance. When searching (open_begin; asymmetric, rigid, mvm), in double precision: the distance is 0 iff the query can be placed in the reference at no cost (with an open end, positive costs so small that their normalized value underflows excluded); with rigid and both ends open, iff the query occurs in the reference as a block at an offset other than 0.",
  "every matrix, size, window", "all inputs", ["dtw/dtw.py:dtw"])
p("Lower and upper bounds used for pruning",
  "With non-negative local costs the distance (symmetric1/symmetric2/asymmetric-like patterns) is at least the sum of any lower bounds of the rows inside the window (LB_Keogh principle) and at least the sum of the two corner costs, and for equal lengths with symmetric1 at most the lock-step diagonal sum. With an open begin (asymmetric, rigid, mvm) the sum of the row bounds is a lower bound too. All of this survives rounding: in double precision, the bounds summed from left to right never exceed the computed distance, so a search that prunes on the computed bound never discards the candidate it would have kept.",
  "every matrix, size, window and bound vector", "all inputs", ["dtw/dtw.py:dtw"])
p("Time reversal",
  "With symmetric1, asymmetric-like functional patterns (asymmetric, rigid, mvm) reversing both series leaves existence and value of the distance unchanged; with the default symmetric2 this is false (negative witness). With asymmetric, reversing both series exchanges open_begin and open_end (and a search with both ends open is unchanged); with rigid it does not (negative witness). In double precision (closed ends) the two distances agree up to factors 1 +- (3(N+M)+2)*2^-52.",
  "every matrix, size and window containing both corners", "all inputs", ["dtw/dtw.py:dtw", "dtw/stepPattern.py:symmetric1"])
p("Concatenation and the triangle inequality",
  "For every step pattern with a plain diagonal step of weight w (all the bundled ones: w is 1, 2 for the normalizable symmetric forms, 3 for mori2006, -1.001 for the internal _symmetricVelichkoZagoruyko), with or without a window: if two pairs of series can be aligned so can their concatenations, and the distance is at most the sum of the two distances plus (w-1) times the first local cost of the second pair - in exact arithmetic, and in double precision up to factors 1 +- (3(N+M)+2)*2^-52. DTW is not a metric: distinct series may have distance 0 and the triangle inequality fails (negative witnesses).",
  "every pair of splittings", "all inputs", ["dtw/dtw.py:dtw"])
p("Forbidden cells are never visited",
  "A NaN local cost (and +inf, when no weight is negative) is a barrier: no point of a returned alignment has such a local cost (single exception: the one-point alignment of a +inf corner); the distance is never NaN and, that exception apart, never +inf. For patterns that charge only the arrival cell (symmetric1/2, symmetricP0, asymmetric, asymmetricP0, typeII*, rigid, mvm) writing NaN/+inf into cells gives exactly the alignment obtained by excluding them with a window function. (False for the private _asymmetricP0b, one of whose rules charges nothing.)",
  "every matrix, size, window, option, rounding and set of forbidden cells", "all inputs", ["dtw/dtw_core.c:argmin", "dtw/dtw_core.c:computeCM", "dtw/dtw.py:dtw"])
p("Open-begin search finds the best placement",
  "With open_begin and the patterns asymmetric, rigid or mvmStepPattern(e), exact arithmetic, the distance is the least sum of local costs over all placements of the query in the reference (any start; with open_end any end) that respect the pattern's steps and the window, and the call succeeds iff there is one. In any arithmetic (doubles, NaN and infinities included) the distance is the left-to-right sum of one placement and no placement with the same end (with open_end: no placement at all, after normalization) has a smaller one. rigid/mvm placements must start at reference index 1 or later: an exact copy at offset 0 is not found (negative witness).",
  "every matrix, size, window", "the minimum ranges over exponentially many placements", ["dtw/dtw.py:dtw", "dtw/stepPattern.py:asymmetric", "dtw/stepPattern.py:rigid", "dtw/mvm.py:mvmStepPattern"])
p("Window functions that return arrays",
  "dtw calls a window function once on index arrays and casts the result to int32; countPaths calls the same function on integers and asks for the truth value. A function that returns an array of the grid's shape has exactly the effect of the pointwise window that admits the cells with True, a float of absolute value >= 1 (or infinite, NaN), or an integer not divisible by 2^32; for element-by-element functions dtw and countPaths agree unless a value is a non-zero fraction in (-1,1) or a non-zero multiple of 2^32. Results that are no row-major matrix are rejected (AttributeError or ValueError). Negative: the shape is never compared with the cost matrix: more elements than the grid give undefined behaviour, as many in another shape silently the distance of the reshaped matrix, fewer always 'No warping path found'.",
  "every window function, matrix, pattern, option and rounding", "the function is arbitrary user code; out-of-bounds writes need not crash", ["dtw/_globalCostMatrix.py:_globalCostMatrix", "dtw/_dtw_utils.pyx:_computeCM_wrapper", "dtw/dtw_core.c:computeCM", "dtw/countPaths.py:countPaths"])
p("Size of an alignment",
  "No matched pair is listed twice. The curve (index1, index2) holds at most N + jmin pairs, so at most N+M-1, and with continuous patterns at least max(N, jmin+1); whatever the pattern there are at most N-1+jmin steps and one more corner point than steps (closed begin); with open begin at most (N-1-i1)+(jmin-j1)+1 pairs, (i1,j1) the first one. The pair bound needs a pattern whose rules move strictly from point to point: all bundled, Rabiner-Juang and mvm patterns do; a user pattern that repeats an intermediate point does not (negative witness). The printed form of the object names N and M.",
  "every matrix, size, window, option and rounding", "all inputs", ["dtw/_backtrack.py:_backtrack", "dtw/dtw.py:dtw", "dtw/dtw.py:DTW"])
p("Stability under noise",
  "If every local cost changes by at most eps, whether an alignment exists does not change (any finite costs, any combination of open ends), and the distance changes by at most eps times the largest total weight of an admissible path - N for hint N, N+M-1 for hint N+M and symmetric1, 3M-2 for mori2006 - so the normalized distance changes by at most eps, also with an open end or an open begin (hint N); if every cost changes by a factor between lo and hi, so do distance (closed end) and normalized distance. Exact arithmetic; non-negative weights (so not the internal _symmetricVelichkoZagoruyko).",
  "every pair of matrices of the same size, window, step pattern and option", "all inputs; minima over exponentially many paths", ["dtw/dtw.py:dtw", "dtw/stepPattern.py"])
p("One-dimensional series",
  "For dtw(x, y) on two series of numbers compared by |x_i - y_j|: adding a constant to both changes nothing; multiplying both by c != 0 multiplies distance, normalized distance and cost matrix by |c| and keeps the path; exchanging them keeps the distance (symmetric patterns, no window or a Sakoe-Chiba band); a series has distance 0 from itself; reversing both in time keeps the symmetric1 distance; without window the symmetric1/symmetric2 distance is 0 exactly when the series are equal once consecutive repetitions are removed; inside a Sakoe-Chiba band the distance is at least LB_Keogh of the envelope, at least the sum of the two end gaps, and at least the excursion of any element beyond the other series' range; for equal lengths at most the lock-step sum (symmetric1); noise of delta and delta' on the series moves it by at most (delta+delta') times the weight of a path.",
  "every pair of non-empty series, bundled step pattern, window and option", "all inputs", ["dtw/dtw.py:dtw", "dtw/window.py:sakoeChibaWindow", "dtw/stepPattern.py"])
p("The console script reads its files as they are written",
  "The script reads every decimal numeral in a file as the double nearest to it, whatever the blanks (spaces, tabs, form feeds, ...), empty lines, # comments and line ends (\\n, \\r\\n, \\r) around it; a table saved with at least 17 significant digits (infinities and NaN included) is read back unchanged, so the script prints the report of the library call on exactly the series that were saved, as a column, a line or one line per time point; 16 digits are not enough. Underscores are ignored between two digits and make the word NaN elsewhere. A word that is not a number is silently read as NaN, and then, with a step pattern that skips nothing (the default) and a metric that keeps NaN, the script fails instead of printing a distance.",
  "every text file, every double, every layout, every step pattern name, every metric",
  "no finite set of files covers all numerals, layouts and doubles; the 17-digit bound is about all doubles at once",
  ["dtw/__main__.py:main2", "dtw/__main__.py:main"])

p("The kernel self-test has a closed form",
  "_test_computeCM(TS), _test_computeCM2(TS) (and the C unit test) return, for every TS >= 1 with TS^2 below 2^31 and in double arithmetic, exactly the cost matrix of dtw with symmetric1 on the multiplication table (i+1)(j+1): to reach (i,j) one walks |i-j| cells along the edge and then diagonally; the last cell is 1^2+2^2+...+TS^2; the move numbers are 1 down the first column, 2 inside, 3 along the first row. TS = 0 is an IndexError.",
  "every size", "the self-test is printed, never compared with anything; sizes are unbounded",
  ["dtw/_dtw_utils.pyx:_test_computeCM", "dtw/_globalCostMatrix.py:_test_computeCM2", "dtw/dtw_core.c:test_computeCM"])

p("The default metric",
  "dtw(x, y) compares samples with scipy's euclidean metric in doubles. Its square root is correctly rounded. On one-dimensional series it is exactly the absolute value of the rounded difference, so the default call returns the same result as dist_method='cityblock' and, on whole numbers below 2^52, the result of the mathematical definition with |x_i - y_j|, provided no difference is below 2^-511 or at least 2^512 in size. Negative: differences of 2^512 or more become infinite and the call fails although all samples are finite; differences of at most 2^-538 become 0, so different series get distance 0. For k columns the squared local cost is the sum of squares up to a factor (1 +- 2^-53)^(k+5). The metrics euclidean, sqeuclidean, cityblock and chebyshev are symmetric to the last bit and 0 on equal rows, so dtw distances are symmetric and 0 on equal series for any number of columns. The first three are NaN as soon as a coordinate is NaN; chebyshev is the correctly rounded largest difference but passes over NaN coordinates, so that a series of NaNs has distance 0 from every other (negative). From samples to distance: in doubles the distance and normalized distance of N x M samples with k columns are off from the mathematical definition by a factor of at most 1 +- (3(N+M)+12+k)*2^-52 (differences 0 or between 2^-400 and 2^400).",
  "every pair of rows of doubles, every series, step pattern, window and option", "rounding, overflow and underflow concern all doubles",
  ["dtw/dtw.py:dtw"])

p("Step-pattern weights are stored as doubles",
  "A StepPattern object keeps its weights as doubles, not as the numbers written in the source (1/3, -1.001). For every pattern the module ships, every Rabiner-Juang pattern and every mvm pattern this changes nothing: dtw returns the same result in double precision, countPaths the same number, print the same text. For a pattern of the user's own the same holds as long as no weight overflows or rounds to -1; one within half a unit in the last place of -1 is silently read as a starting point instead of a weight (negative witness).",
  "every input, option and window; every pattern with storable weights", "rounding of weights against all inputs",
  ["dtw/stepPattern.py:StepPattern", "dtw/dtw_core.c:computeCM", "dtw/countPaths.py:countPaths"])

p("Every beginning and every ending of an alignment is an alignment",
  "Cut the alignment dtw returns at any of its corner points (index1s[k], index2s[k]) = (i, j): the closed-end call on query[:i+1] and reference[:j+1] succeeds and returns exactly the first k steps, the first k+1 corner points and the corresponding beginning of index1/index2, ties included, and its distance is the cell (i, j) of the cost matrix. Likewise for open-begin alignments (open-begin call on the beginnings). Without rounding the same holds for the endings (closed begin): the call on query[i:] and reference[j:jmin+1] returns exactly the remaining steps and points, and the distances of beginning and ending add up to the distance plus the local cost of the corner. Windows must not look at the sizes.",
  "every matrix, size, step pattern, window, option, rounding, and every corner point", "all inputs and all cut points; depends on the tie-breaking of the kernel",
  ["dtw/dtw.py:dtw", "dtw/_backtrack.py:_backtrack", "dtw/dtw_core.c:computeCM"])

p("Early abandoning",
  "With non-negative local costs and weights the cells of the cost matrix never decrease along the returned alignment and never exceed the distance; if no step advances by more than c query elements (c = 1 for symmetric1/2, asymmetric, symmetricP0, asymmetricP0, rigid, mvm; at most 4 for every bundled pattern), every band of c consecutive rows contains a cell not above the distance (with columns likewise), so that once c consecutive rows all exceed a threshold the distance does too, whatever the rest of the query. In double arithmetic as well as exactly; open begin and open end too.",
  "every matrix, size, step pattern with non-negative weights, window, option; doubles", "all inputs, all rows; rounding could break monotonicity",
  ["dtw/dtw.py:dtw", "dtw/dtw_core.c:computeCM"])

p("Series with several features",
  "For series of several columns and the metrics euclidean (the default), sqeuclidean, cityblock and chebyshev: a feature with the same finite value everywhere (zero padding, say) changes nothing to the last bit, wherever its column stands; adding a feature to both series never lowers the distance or makes a failing closed call succeed, in doubles; permuting the features of both series in the same way, changes nothing when sums are exact - and for two features the order does not matter in doubles either (three features: negative witness), for chebyshev it never does; translating each feature by its own amount in both series, without rounding, changes nothing, in doubles too.",
  "every series, number of columns, column position, window, option and bundled pattern with non-negative weights", "all inputs and all numbers of features", ["dtw/dtw.py:dtw"])
p("Several threads, interrupted calls",
  "Calls of dtw() from several threads may be interleaved in any way, at any access to any object, also with other code that creates objects or overwrites objects: a call none of whose own arguments (arrays, window_args dict, step-pattern object) is overwritten while it runs ends exactly as if it ran alone (same result or same exception), even if other threads race on their own arguments; it needs a number of steps that depends on its arguments only; results of different threads share none of their own arrays. At every moment, in the middle of any call, all objects that existed before have their old contents, so a call abandoned anywhere (KeyboardInterrupt, killed thread) leaves no trace and a retry gives what it would have given. Negative: overwriting the (default) window_args dict during a call changes its outcome.",
  "every number of threads, every schedule, every interruption point, every set of calls", "schedules and crash points cannot be enumerated by tests",
  ["dtw/dtw.py:dtw", "dtw/_globalCostMatrix.py:_globalCostMatrix", "dtw/_dtw_utils.pyx:_computeCM_wrapper"])
p("The names of the package",
  "In any program made of import statements in any order (failing ones included), once any part of the package is imported: dtw.X and dtw.module.X are the documented objects, the same object everywhere; no module body runs twice; 'from dtw import *' succeeds and binds every documented name to the documented object whatever it was before (and also rebinds a few undocumented ones: negative); each documented name can be imported from the package or from its defining module, also under another name; the strings accepted as step_pattern names are exactly the module-level patterns; symmetricP0 and symmetric2 are one object. 'import dtw' and 'import dtw.X' bind only the name dtw, to the package. Negative: 'import dtw.warp as w' gives the function, not the module. Importing a module the package does not have (or anything below a module) raises ModuleNotFoundError; importing a name from the package that is none of its attributes, which are listed, raises ImportError; both leave the names of the program alone.",
  "every sequence of import statements and definitions", "import orders and partially initialised modules cannot be enumerated by tests",
  ["dtw/__init__.py", "dtw/__main__.py", "dtw/dtw.py", "dtw/stepPattern.py", "dtw/window.py", "dtw/warp.py"])
p("The demonstration data",
  "aami() returns two tables of two rows - time stamps in ms at 720 Hz, and the numbers of the bundled text file read as the nearest doubles - one column per number; the time stamps start at 0, increase strictly and are right up to a relative error of 3*2^-53 (up to 2^38 samples), but are not always exact (negative: sample 2898). sin_cos() returns two series of 100 finite samples, the reference within [-1,1], the query within [-1,1.1], over strictly increasing abscissae from 0 to 6.28, equally spaced up to rounding, whatever the noise; dtw(query, reference) on them always succeeds with a finite distance.",
  "every text file of decimal numerals, every number of samples, every noise, every sine and cosine with values in [-1,1]", "random data; files of any length; rounding",
  ["dtw/dtw_test_data.py:aami", "dtw/dtw_test_data.py:sin_cos", "dtw/dtw.py:dtw"])
p("Finite data never overflow",
  "In double arithmetic, for finite local costs of size up to 2^900 and weights up to 2^9, whether a call returns an alignment depends only on the sizes, the window, the pattern and the options, not on the costs, and is what exact arithmetic gives, for any combination of open ends and distance_only; distance, normalized distance and all non-NaN cells of the cost matrix are finite doubles. For samples up to 2^400 and the metrics euclidean, sqeuclidean, cityblock, chebyshev, two pairs of series of the same lengths both succeed or both fail. Hence without window the patterns with slope bounds lo..hi succeed exactly when lo(N-1) <= M-1 <= hi(N-1) (open end: lo(N-1) <= M-1; open begin: lo N <= M-1; mvm: N-1 <= M-1 <= e(N-1)), and the default call dtw(x, y) always succeeds.",
  "every finite series or cost matrix, size, bundled or bounded user pattern, window and option", "overflow and NaN concern all inputs; success for all data of a given size",
  ["dtw/dtw.py:dtw", "dtw/dtw_core.c:computeCM", "dtw/_backtrack.py:_backtrack"])
p("One-dimensional series in double precision",
  "For two series of doubles and the metrics euclidean (default), cityblock and chebyshev, everything computed in doubles: without window and with symmetric1, symmetric2 (the default) or symmetricP0 the distance is 0 exactly when the series are equal up to consecutive repetitions; in a Sakoe-Chiba band the LB_Keogh sum, computed from left to right in doubles, never exceeds the computed distance; for equal lengths and symmetric1 the distance does not exceed the left-to-right sum of the sizes of the differences; multiplying both series by a power of two multiplies distance, normalized distance and cost matrix by it to the last bit and leaves the alignment as it is; translating both by an amount that does not round changes nothing.",
  "every pair of series of doubles without overflow (euclidean: differences not extremely small or large; scaling: differences 0 or 2^-400..2^400, factor 2^-50..2^50), window, option, bundled pattern as stated", "rounding concerns all inputs; a pruning search relies on the bound for every candidate",
  ["dtw/dtw.py:dtw", "dtw/dtw_core.c:computeCM"])
p("Coarse alignments bound fine ones",
  "Cut the query and the reference into consecutive blocks and align the blocks with the same pattern (symmetric1, symmetric2, symmetricP0, asymmetricP0; the reference alone also for asymmetric), at local costs not above those of any two of their elements and in a window that admits the blocks of admitted cells: the coarse call succeeds whenever the fine one does, and its distance is not greater (closed ends); with the reference alone cut into blocks, its normalized distance is not greater with an open end and in a search with both ends open. Hence: removing consecutive repetitions from both series never increases the distance; the distance between bounding intervals of blocks is a lower bound of the distance of the series. In doubles as well as exactly.",
  "every pair of series or cost matrix, every division into blocks, window; doubles", "all inputs, all divisions into blocks; a multi-resolution search relies on it for every candidate",
  ["dtw/dtw.py:dtw", "dtw/dtw_core.c:computeCM"])
p("What lies off the alignment does not matter; ties",
  "Take the alignment dtw returns and change the problem off it: make local costs of cells it does not visit dearer (same, larger, infinite or NaN), or forbid cells that are not among its corner points by a smaller window. dtw returns the same alignment - same steps, indices, jmin, distance and normalized distance - in any arithmetic, closed or open begin, closed or open end. In particular a Sakoe-Chiba band at least as wide as the unrestricted alignment strays from the diagonal changes nothing. Ties, without rounding: among all alignments ending at the same point with the same cost dtw returns the one that is first when the rule numbers are compared from the end backwards; so two calls with the same optimal alignments return the same one, whatever their costs and windows.",
  "every matrix, size, step pattern (non-negative weights where finite costs are raised), pair of windows, options, rounding", "all inputs and all changes off the path; all ties",
  ["dtw/dtw.py:dtw", "dtw/_backtrack.py:_backtrack", "dtw/dtw_core.c:computeCM", "dtw/dtw_core.c:argmin"])
p("Several kinds of local cost",
  "Align with a weighted sum of several cost matrices (weights not negative), same options: the call succeeds exactly when each of the separate calls does, its distance (closed ends or open beginning) is at least the weighted sum of the separate distances, and its normalized distance at least the weighted sum of the separate normalized distances, whatever ends are open, whatever the window and the step pattern; with equality for the distance if the separate calls report the same steps. Hence for series of k columns and the metrics cityblock and sqeuclidean, aligning all columns together is never cheaper than the sum of the columns aligned separately. Negative: not so for the default metric, euclidean. In double precision (closed ends) the bound holds up to factors 1 +- (3(N+M)+2)*2^-52.",
  "every number of matrices or columns, weights, sizes, window, pattern, options; exact arithmetic", "a minimum over all alignments of every matrix", ["dtw/dtw.py:dtw", "dtw/dtw_core.c:computeCM"])
p("Stricter step patterns never align more cheaply",
  "If every rule of one step pattern can be replaced by a sequence of rules of another that leads from the same origin to the same cell and charges only cells the rule charges, in order and at weights that are not greater, then, at non-negative local costs, the second pattern finds an alignment whenever the first does, and its distance (closed ends, or open beginning) or normalized distance (open end, same normalization) is not greater: inside any window if the sequences are single rules, otherwise without window. So symmetric1 <= symmetric2 = symmetricP0 <= symmetricP05 <= symmetricP1 (one by one or without window) <= symmetricP2, asymmetricP05 <= asymmetricP1 <= symmetricP1, typeIa <= typeIc <= typeIb, typeIVc <= _asymmetricItakura and others, and mvmStepPattern gets no dearer with more elasticity. In doubles as well as exactly. Negative: asymmetric and symmetric2 are incomparable; with negative costs or windows that exclude passed cells the order can fail.",
  "every cost matrix without negative entries, size, pair of patterns as stated, window, options; doubles", "all inputs and all alignments of two patterns", ["dtw/stepPattern.py", "dtw/dtw.py:dtw", "dtw/dtw_core.c:computeCM", "dtw/mvm.py:mvmStepPattern"])
p("Alignments without a choice",
  "Two series of the same length n in a Sakoe-Chiba band with 0 <= window_size < 1: element i is matched with element i and nothing else, and the distance is the sum of the local costs (i, i) in this order, those after the first at the weight of the step pattern's diagonal step (1 for symmetric1, the asymmetric patterns, rigid; 2 for symmetric2, symmetricP*, type *d; 3 for mori2006): 26 bundled patterns; so with weight 1 the distance is the sum of |x_i - y_i|. A query of one element with symmetric1, symmetric2 or symmetricP0 is matched with every reference element, a reference of one element (also asymmetric, asymmetricP0) with every query element, and the distance is the sum of the local costs. In any arithmetic; the call succeeds exactly when that sum is usable. Negative: typeIIIc, typeIVc and _asymmetricItakura charge cells off the diagonal even in a band of width zero.",
  "every cost matrix (infinities and NaN included), length, bundled pattern as stated, arithmetic", "all lengths and all costs", ["dtw/window.py:sakoeChibaWindow", "dtw/dtw.py:dtw", "dtw/dtw_core.c:computeCM"])
p("Searching in a longer recording",
  "Let the reference be part of a longer recording, reference = recording[k:k+m]. Searching (open_begin, and open_end unless the part is the end of the recording) for a query in the recording succeeds whenever the search in the part does, and its normalized distance (and, with a closed end, its distance) is not greater. If what is found in the recording begins and ends in the part, the first step included, the search in the part finds the same alignment: same steps, query indices, distance, reference indices counted from k. With an open end (begin closed or open), appending to the reference leaves the result exactly as it was unless the new alignment ends in the new part and is strictly better normalized. In doubles as well as exactly. Negative: rigid (and mvm) never match reference element 0, so a match beginning at the very start of the part is lost.",
  "every query, recording, part, step pattern, pair of compatible windows, rounding", "all recordings and cuts", ["dtw/dtw.py:dtw", "dtw/_backtrack.py:_backtrack", "dtw/dtw_core.c:computeCM"])
p("The normalized distance is a mean of the matched costs",
  "Exact arithmetic, finite local costs, any window. If the local costs of the pairs listed in index1/index2 lie between lo and hi, then for every bundled pattern with hint 'N' the normalizedDistance lies between lo and hi (closed or open ends); with hint 'N+M' between lo and hi times (N+jmin)/(N+jmin+1), because the library divides by N+jmin+1 where the weights total N+jmin; in general the distance lies between lo and hi times the total weight of the alignment. In doubles rounding can push the value just outside (negative witness).",
  "every matrix, size, window, normalizable pattern, combination of open ends, lo and hi",
  "all inputs; the alignment is the one the optimization picks",
  ["dtw/dtw.py:dtw", "dtw/stepPattern.py:StepPattern", "dtw/_backtrack.py:_backtrack"])
p("Weights within a factor",
  "If two step patterns make the same moves through the same cells and the weights of the second are at most K >= 1 times those of the first, then with non-negative finite local costs, closed ends and any window (exact arithmetic) both find alignments for the same problems and the second distance is at most K times the first. So symmetric1 <= symmetric2 <= 2 symmetric1, and for every Rabiner-Juang type, smoothed or not, the slope weightings satisfy d_a <= d_c <= d_b <= d_d <= 2 d_b. Both factors are attained.",
  "every matrix of non-negative costs, size, window, pair of such patterns",
  "all inputs and all patterns of the family",
  ["dtw/stepPattern.py:rabinerJuangStepPattern", "dtw/stepPattern.py:symmetric1", "dtw/stepPattern.py:symmetric2", "dtw/dtw.py:dtw"])
p("Outliers count once",
  "Move sample i of the query by at most delta_i and sample j of the reference by at most eta_j (any local cost that changes by at most delta_i + eta_j at the pair (i, j)). Then the distance (exact arithmetic, closed ends, any window, same options) moves by at most K * sum(delta) + K' * sum(eta), K and K' constants of the step pattern and not of the length: for the asymmetric family, mvm and the slope-constrained patterns one wrong sample is charged a bounded number of times. With open ends the same for patterns with hint 'N' (normalized and not). For symmetric2 there is no such constant: one sample can be charged as often as it is matched.",
  "every pair of series or matrices, size, window, pattern with such constants, position and size of the outliers",
  "all inputs and all perturbations; the optimal alignment may change with the perturbation",
  ["dtw/dtw.py:dtw", "dtw/stepPattern.py:asymmetric", "dtw/stepPattern.py:mvmStepPattern", "dtw/_globalCostMatrix.py:_globalCostMatrix"])
p("A clear winner survives noise",
  "If the alignment returned is cheaper than every other admissible alignment by more than twice what a perturbation of the local costs can change (eps times the total weight, or the bound of the outlier property), then the perturbed problem is solved and returns the same alignment: same index1, index2, stepsTaken and jmin, in exact arithmetic, with closed ends, and with any open ends for patterns with hint 'N'. In particular, if the samples of a series are pairwise at least g apart, two noisy copies of it with little enough noise are matched sample i with sample i, for the patterns in which leaving the diagonal costs something.",
  "every matrix, perturbation, size, window and pattern with non-negative weights",
  "all inputs and all perturbations",
  ["dtw/dtw.py:dtw", "dtw/_backtrack.py:_backtrack", "dtw/stepPattern.py:StepPattern"])
p("Sample-and-hold resampling",
  "Repeat the samples of both series, each at most K times (different samples may be repeated differently often). With symmetric1, symmetric2, symmetricP0 and asymmetricP0, closed ends, no window (or a window that treats the copies alike), non-negative local costs and exact arithmetic, the distance of the stretched series is at least the distance d of the original ones and at most K*d (symmetric1, asymmetricP0), K*d + (K-1)*c00 (symmetric2, symmetricP0; c00 the first local cost). The upper bounds are attained.",
  "every pair of series or matrices, size, pattern of repetitions, K",
  "all inputs and all patterns of repetitions",
  ["dtw/dtw.py:dtw", "dtw/stepPattern.py:symmetric1", "dtw/stepPattern.py:symmetric2", "dtw/stepPattern.py:asymmetricP0"])
p("Signs of zeros and payloads of NaNs do not matter",
  "Two calls of dtw() whose numbers, as 64-bit patterns, differ only in the sign of zeros and in the payload of NaNs have the same outcome: the same error, or results with the same index1, index2, stepsTaken, jmin and directionMatrix, and with distance, normalizedDistance and costMatrix that are equal as numbers (0.0 and -0.0 being equal, NaNs being NaNs). This holds on every machine computing in double precision, whichever sign or payload its operations produce, with or without fused multiply-add. Two patterns stand for the same number only if they are equal, both zeros, or both NaNs, and every double has a pattern.",
  "every call, every pair of bit-level representations of its inputs, every choice of signs and payloads made by the hardware",
  "all inputs and all hardware choices", ["dtw/dtw_core.c:computeCM", "dtw/dtw_core.c:argmin", "dtw/dtw.py:dtw", "dtw/_globalCostMatrix.py:_globalCostMatrix"])
p("Rounding does not change a clear winner",
  "Local costs 0 or between 2^-900 and 2^900, bundled pattern without negative weights, any window. If in exact arithmetic every other admissible alignment costs more than 1 + (3(N+M)+2)*2^-50 times the optimum (with open ends: its normalized cost more than 1 + (3(N+M)+6)*2^-50 times the best, wherever it begins and ends), the call in double precision returns exactly that alignment: same index1, index2, stepsTaken and jmin. Noise and rounding together: the same if the lead also covers the noise. So two noisy copies of a series with well separated samples are matched sample by sample with everything computed in doubles, and a query slid along a recording (rigid, both ends open) is found at the offset that clearly has the least sum. The guarantees on noise, outliers, weights within a factor and sample-and-hold resampling hold for the distances computed in doubles up to factors 1 +- (3(N+M)+2)*2^-52.",
  "every matrix, size, window, pattern, combination of open ends, perturbation", "all inputs; the rounding errors of an unbounded computation",
  ["dtw/dtw.py:dtw", "dtw/dtw_core.c:computeCM", "dtw/_backtrack.py:_backtrack", "dtw/stepPattern.py:rigid"])
p("Applying the warp",
  "query[warp(d)] is the documented way of warping the query onto the reference (reference[warp(d, index_reference=True)] the other way round). For closed-begin alignments with a pattern that skips nothing, lengths summing to at most 2^26, double precision: although warp truncates means of indices, every element is replaced by one the alignment matched to it. If the pattern also charges every cell it passes (symmetric1, symmetric2, symmetricP0/P05/P1/P2, typeIb, typeIbs, typeId, mori2006, rigid), the local costs between the warped query and the reference are each at most the distance and sum to at most the distance (up to the rounding error (3(N+M)+6)*2^-52 relative); if the distance is 0 the warped query is the reference. Two series that arise from a third by repeating elements are recovered from each other exactly (symmetric1, symmetric2, symmetricP0). With patterns that match each query element once (asymmetric, rigid, mvmStepPattern), any ends, warp(d, index_reference=True) is d.index2.",
  "every matrix of local costs, size, window, direction", "all inputs",
  ["dtw/warp.py:warp", "dtw/dtw.py:dtw", "dtw/_backtrack.py:_backtrack"])
p("Comparing with a flat series",
  "If one of the two series is constant, so that the local cost depends on the sample of the other one only (cost[i] for query sample i against any reference sample), the distance has a closed form (exact arithmetic, closed ends). No window: with symmetric1 and costs >= 0 it is the sum of cost[i] plus max(0, M-N) times the smallest cost; with symmetric2 (the default) and symmetricP0 the sum plus (M-1) times the smallest cost; the same with the roles exchanged when the query is the flat series. With asymmetric, rigid, mvm and asymmetricP0 and any window, whenever there is an alignment, exactly the sum - so against a zero baseline the sum of absolute values. In double precision (costs 0 or within 2^+-900) up to a relative error (3(N+M)+2)*2^-52.",
  "all lengths, levels, costs and (for the asymmetric patterns) windows",
  "any number of samples, any values",
  ["dtw/dtw.py:dtw", "dtw/stepPattern.py", "dtw/dtw_core.c:computeCM"])
p("Offsets of the query samples do not matter",
  "With a step pattern that charges every query element exactly once (asymmetric, asymmetricP0, _asymmetricP0b, asymmetricP05, asymmetricP1, typeIc, typeIcs, typeIIIc, typeIVc, rigid, every mvmStepPattern), adding a number f[i] of one's own to each row i of the local cost matrix changes nothing in the outcome but two numbers: distance grows by the sum of the f[i], normalizedDistance by their mean; error or not, jmin, index1, index2, stepsTaken and directionMatrix are the same, and row i of costMatrix grows by f[0]+...+f[i]. All windows, open ends and local costs (infinite and NaN ones too), exact arithmetic. So when the samples are compared by squared differences, the squares of the query samples play no role: the alignment is the one of the local cost y[j]^2 - 2 x[i] y[j]. A local cost that depends on the query sample only makes the distance the sum of these costs, whatever the window and the ends. The same holds for columns with mori2006 and closed ends, with the factor 3 (1 for the first column). Among the bundled patterns it holds for no others. In double precision (costs 0 or between 2^-900 and 2^900, closed ends) the distances agree with this up to a relative error (3(N+M)+2)*2^-52 of the exact ones.",
  "every matrix, offsets, size, window, pattern with the stated charges, combination of open ends", "all inputs and all offsets",
  ["dtw/dtw.py:dtw", "dtw/dtw_core.c:computeCM", "dtw/stepPattern.py:asymmetric", "dtw/stepPattern.py:mori2006"])
p("Changing the local distance",
  "Distances under different local distances are related (exact arithmetic, patterns with non-negative weights, any window). If every local cost of one call is at least the square of the (non-negative) cost of another call, the two succeed together and D1^2 <= T*D2, T the largest weight of an alignment (N+M-1 for every bundled pattern but mori2006, N for those with hint 'N'); so for hints 'N' and 'N+M', and any end, normalizedDistance^2 <= the normalizedDistance of the squares (mori2006: 3 times it), and with an open beginning D1^2 <= N*D2. Conversely, if the costs are at most the squares, D2 <= D1^2 for patterns whose weights are 0 or at least 1; and costs at most B times as large give a distance at most B times as large. For series with k features and closed ends: chebyshev <= cityblock <= k*chebyshev, chebyshev^2 <= T*sqeuclidean, cityblock^2 <= T*k*sqeuclidean, sqeuclidean <= cityblock^2. Proved for all the bundled patterns the weights allow.",
  "every pair of matrices so related, every pair of series, size, number of features, window, pattern", "all inputs",
  ["dtw/dtw.py:dtw", "dtw/dtw_core.c:computeCM", "dtw/stepPattern.py:StepPattern"])
p("Transforming the samples",
  "Clipping two one-dimensional series to an interval, rectifying them, cutting them off below or above a level, or applying to both any map that moves no sample of the query away from a sample of the reference never makes the alignment worse, in doubles as computed and whatever the window: with closed ends a call that succeeds still succeeds and its distance is not larger; with an open beginning or end the normalizedDistance is not larger. In exact arithmetic a map that shrinks or stretches the differences by factors between k > 0 and K changes the distance by a factor between k and K, and the two calls succeed together. Proved for all the bundled patterns but _symmetricVelichkoZagoruyko, which has a negative weight.",
  "All pairs of non-empty one-dimensional series, all maps of the samples, windows, ends (exact part: closed ends), bundled step patterns with non-negative weights; doubles: local costs by 'cityblock', 'chebyshev', or 'euclidean' where no difference under- or overflows.",
  "The set of maps and series is infinite, and the comparison is between two rounded computations that take different branches.",
  ["dtw/dtw.py:dtw", "dtw/dtw_core.c:computeCM"])

p("Averaging series along their alignments",
  "Several series are aligned with one template (closed ends, exact arithmetic) and every element of the template is replaced by the mean of the elements matched to it (DTW barycenter averaging, the classical use of index1/index2). Under the squared euclidean distance, with the weights of the step pattern, any number of features, any windows and bundled pattern without negative weight: every new call succeeds and the sum of the distances is not larger; repeated, the sums form a sequence that never increases. With symmetric1, asymmetric, typeIIa, rigid and mvmStepPattern the weights are 1 and the mean is that of query[index1[index2 == j]]; with the default symmetric2 that plain mean can raise the distance (negative witness), the diagonal steps count twice. Under the absolute difference the same holds for (weighted) medians, and generally for any change of the template that does not raise, element by element, what the alignments charge. Underlying fact: the distance is the weighted sum of the local costs over the cells given by stepsTaken.",
  "every number of series, lengths, numbers of features, values, windows, patterns, number of rounds", "any number of series and rounds, all values",
  ["dtw/dtw.py:dtw", "dtw/_backtrack.py:_backtrack", "dtw/dtw_core.c:computeCM", "dtw/stepPattern.py:StepPattern"])

p("Alignments through a given pair",
  "Exact arithmetic, closed ends, any step pattern and window. The best alignment that has the corner point (i, j) costs the distance of query[:i+1], reference[:j+1] plus the distance of query[i:], reference[j:] (in the same window) minus the local cost of the pair; it exists exactly when both parts can be aligned; the distance of the whole is never larger, and is equal exactly when some optimal alignment has that corner point. So an alignment forced through a landmark is computed by two calls. For patterns that advance by at most one query element per step (symmetric1, symmetric2, symmetricP0, asymmetric, asymmetricP0, rigid, mvmStepPattern) the distance can be computed by cutting the query at any element i: it is the least, over j, of these sums, and the call succeeds exactly when one of the pairs of parts can be aligned. In double precision (costs 0 or within 2^+-900, no negative weights) the success conditions are the same and both bounds hold up to factors 1 +- (3(N+M)+2)*2^-52.",
  "every matrix of local costs, size, window, pattern, pair (i, j)", "all inputs and all alignments through a cell",
  ["dtw/dtw.py:dtw", "dtw/dtw_core.c:computeCM", "dtw/stepPattern.py:StepPattern"])

p("The compiler's fused multiply-add does not matter",
  "C compilers may contract the kernel's `sum += weight * cost` into one instruction that rounds once (GCC does by default where the machine has it), so the same call may compute different numbers on different machines. With every bundled step pattern whose weights are 0 and 1 (symmetric1, asymmetric, asymmetricP0, typeIa, typeIb, typeIc, typeIbs, typeIIa, typeIIIc, typeIVc, rigid, mvm, ...) and any doubles as local costs (infinite and NaN included), or whose weights are 0, 1/2, 1 and 2 (all the bundled patterns but _symmetricVelichkoZagoruyko, asymmetricP05, asymmetricP2, typeIds, typeIId and mori2006 - so the default symmetric2) and costs that can be doubled and halved, the outcome is the same: the same exception or the same result, bit for bit in every field, for every window and combination of open ends. For the other patterns (closed ends, modest costs >= 0, no negative weight) both machines succeed or both raise, and their distances differ by at most 2*(3(N+M)+2)*2^-52 of the exact one; with mori2006 they do differ on a 2 x 2 matrix.",
  "every matrix of local costs, size, window, pattern, combination of open ends", "all inputs; and a test runs on one machine, under one compiler",
  ["dtw/dtw_core.c:computeCM", "dtw/dtw.py:dtw", "dtw/stepPattern.py:StepPattern", "setup.py"])

p("Finding one occurrence after another",
  "All occurrences of a query in a longer reference are found by searching with open_begin (and open_end), forbidding the reference elements found (cost[:, alignment.index2] = np.inf, or NaN), and searching again until the call raises. With a step pattern of hint 'N' without negative weight (all the public ones, mvmStepPattern too): the occurrences come in the order of their normalizedDistance, best first (in doubles too); no reference element is found twice; so the numbers of elements matched sum to at most M, the loop ends after at most M calls - after at most M/N with rigid and mvmStepPattern. With asymmetric, rigid and mvmStepPattern (exact arithmetic) each call returns the best of all placements of the query that touch no element found before, and the call raises exactly when every placement left touches one. In general forbidding more elements never makes the result better.",
  "every number of calls, query, reference, window, pattern; any arithmetic unless stated", "any number of calls, each depending on the earlier ones; all inputs",
  ["dtw/dtw.py:dtw", "dtw/dtw_core.c:computeCM", "dtw/_backtrack.py:_backtrack", "dtw/stepPattern.py:rigid"])

p("Comparing up to rotation",
  "dtw(x, np.concatenate([y, y]), step_pattern=rigid, open_begin=True, open_end=True) with series of the same length n (one turn of a closed contour, one day of a daily pattern; exact arithmetic) always succeeds, and its distance is the least sum of |x_i - y'_i| over all rotations y' of y, that of offset 0 included, although rigid never tries the offset 0 itself. So the number does not change when either series is rotated or the two are exchanged, satisfies the triangle inequality, and is 0 exactly when one series is a rotation of the other. The first statement for any local costs that repeat with period n; the rotation can be read off jmin (it is jmin+1 modulo n), index1 and index2. In double precision (costs 0 or within 2^+-900) the call succeeds too, the rotation it reports has a sum within a factor 1+(9n+6)*2^-50 of the least, and the distance is that sum up to a relative error (9n+6)*2^-52.",
  "every length, series, rotation", "all lengths and values",
  ["dtw/dtw.py:dtw", "dtw/dtw_core.c:computeCM", "dtw/stepPattern.py:rigid"])

with open(os.path.join(os.path.dirname(__file__), "..", "properties.jsonl"), "w") as f:
    for q in P: f.write(json.dumps(q, ensure_ascii=False) + "\n")
print(len(P))

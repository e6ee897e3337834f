{
 "C01": "Dtw+Kernel; refinement to Bellman, then soundness/optimality against inductive `WarpPath`",
 "C02": "same; optimality both ways (with the 1×1 +inf exception made explicit)",
 "C03": "backtrack replay: the chosen directions form a `WarpPath` of exactly that accumulated cost, any arithmetic",
 "C04": "backtrack replay, `curve` of Spec",
 "C05": "chain lemmas on `fine`/`coarse` curves for ordered rules; negative witness for unordered ones; open begin: range from the open path relation",
 "C06": "backtrack replay: all five fields are functions of one rule sequence",
 "C07": "loop invariant of computeCM ⇒ Bellman",
 "C08": "loop invariant of computeCM ⇒ Bellman (`IsBest` = first minimiser)",
 "C09": "induction on cells from the Bellman system",
 "C10": "path induction; negative witness for multi-step rules",
 "C11": "optimality + path inclusion",
 "C12": "monotone replay of a path under pointwise larger costs, any monotone rounding",
 "C13": "Bellman.map: multiplication by c is an automorphism of the recursion; for powers of two in doubles: rounding commutes with the scaling in the middle of the range (`Props/PowersOfTwo.lean`)",
 "C14": "path induction; open begin: same on the dropped-row matrix",
 "C15": "diagonal path + C14",
 "C16": "Bellman.transpose + uniqueness; pattern transpose from Pattern.T",
 "C17": "C16 + rule-permutation invariance; checked for the whole table",
 "C18": "unfolding `normalise` against `normBy`",
 "C19": "linear weight functional on rules, path induction; Bellman.shift",
 "C20": "nanargmin = FirstBest; comparison with closed end",
 "C21": "uniqueness of the Bellman system on sub-matrices; open begin / both ends: the prefix problem has the same Bellman system",
 "C22": "Bellman with a null seeded row, against inductive `OpenPath`",
 "C23": "path translation closed→open; negative witness",
 "C24": "case analysis of pickMapping; both calls share the matrices",
 "C25": "same",
 "C26": "cdist model; same Bellman system",
 "C27": "rule deltas (1, 0..2), chain lemma; reachability for existence",
 "C28": "chain lemma for continuous rules, whole table checked",
 "C29": "computeCM never returns `ub`/`cExit` for well-formed patterns; explicit failing inputs otherwise",
 "C30": "measure i+j decreases along directions",
 "C31": "Pattern.T on rows",
 "C32": "kernel evaluation over the whole table, induction for mvm",
 "C33": "row equality / rule-permutation + C34; any ends: same numbers (`Result.numbers`)",
 "C34": "uniqueness: candidates are a permutation, minimum agrees; any ends",
 "C35": "loop invariant of countPaths against sets of rule sequences (`HasCount`); open begin and both ends: sums over start and end columns; in doubles the table of the recursion, one relative error per addition (`CloseCount`), pairwise sum included",
 "C36": "C35 + C02; open begin: the part of a path after its last point in row 0",
 "C37": "window semantics; explicit staircase paths for success, end point outside for failure",
 "C38": "window semantics; explicit paths; the slanted band as evaluated in doubles, error analysis against the formula",
 "C39": "uniqueness: same window matrix",
 "C40": "case analysis of name lookups",
 "C41": "numpy/scipy interpolation of de-duplicated points; in doubles by floor-preservation of rounded quotients (WarpDoubles.lean)",
 "C42": "interpolated curve `CurveAt`, linspace in exact arithmetic; in doubles exact where the diagonal meets grid points only (WarpDoubles.lean)",
 "C43": "mvmRules, chain lemma",
 "C44": "printed tokens read back (`readLine`) equal the candidate of the recursion; the text itself is modelled character by character and a separate reader (`Read.pattern`) recovers the rules from it, weights rounded to two digits (C44_text); exact and injective for two-digit weights",
 "C45": "Drawing = data sent to matplotlib; explicit series and positions by list induction",
 "C46": "heap simulation: dtw on the heap equals pure dtw on dereferenced arguments; frame conditions; induction on histories",
 "C47": "strided memory; raw read of C-contiguous memory equals logical matrix",
 "C48": "main2 composed from the dtw model; the printed numbers and the printed path are read back by separate readers (C48_output: four digits, path complete up to 500 points); layout by induction over the line-filling loop (C48_layout); command lines as lists of file names and options, by induction over the word list through argparse's classification and consumption loops (C48_any_order, C48_separator, C48_version_help, C48_unknown_option, C48_ambiguous)",
 "C49": "rnd64 nearest-even; relative error propagated through paths (Higham-style) by induction; special values (NaN, infinities) of +, *, / case by case; any ends: all paths of the recursion approximated simultaneously, one more rounding for the normalisation (`Props/Accuracy.lean`)",
 "C50": "rnd64 exact on integers up to 2^53; Bellman systems coincide for any seed; rounding keeps the order of quotients x/k with x*K < 2^52, so nanargmin picks the same end; the two result objects are equal up to the rounded normalized distance",
 "C51": "slope interval of rules, chain lemma; reachability by explicit rule mixtures (Frobenius-style) for existence; with open ends by the flattest rule mixture, started at any element of the reference (`Props/SlopeOpen.lean`)",
 "C52": "kernel evaluation over all 56 patterns; induction over builder chains",
 "C53": "`Reads`: each pattern's rule sequences ↔ textbook curves with equal cost; in general: sequences of productions <-> rule sequences, by induction",
 "C54": "zero-cost path + C14; converse through C53; searching in doubles: sums of representable non-negative costs are at least each of them (`fnSum_ge`); warping in doubles: rounding is idempotent and monotone, so a zero sum has zero summands (`C54_zero_iff_doubles`)",
 "C55": "C53 + summation over rows; in doubles: monotone rounding step by step along the path (`C55_row_bound_rounded`, `C55_pruning_is_safe`)",
 "C56": "curve reversal + C53; open ends: both calls are least costs over warping functions (C59, C20_asymmetric_prefix), mirrored into each other",
 "C57": "concatenation of rule paths block by block, additivity of exact charges; kernel-evaluated counterexamples",
 "C58": "absorption of NaN/+inf by multiply-add; induction along the path; Bellman system with cells moved from cost matrix to window, uniqueness",
 "C59": "in any arithmetic via the left-to-right sum `fnSum`; induction between paths from the null row and placement functions; C22 with both ends open",
 "C60": "`PyWindow`: scalar and array behaviour of one function; the kernel depends on window entries only through being zero; frame lemma for buffers longer than the announced dimensions; induction over the clearing loop for the out-of-bounds case (`ArrayWindow.lean`, `Props/ArrayWindows.lean`)",
 "C61": "every consecutive pair of points raises i+j (fine_chain); a list on which i+j climbs has no repetition and its length is bounded by the climb; unit steps give the lower bound; `Read.sizes` reads the text back (`Props/Length.lean`)",
 "C62": "the same rules applied with two cost matrices differ by at most eps per unit of weight (`WarpPath.stable`, `OpenPath.stable`, induction on the path); optimality in both directions; existence through the success characterisations of C09, C20, C22 (`Props/Stability.lean`)",
 "C63": "instances of C13, C15, C17, C54-C56, C62 through `ask_problem`, which turns a call on two lists of numbers into a `Problem` with costs |x_i-y_j|; squashing by induction along / construction of a zero curve (`SpecSeries.lean`, `Props/Series.lean`)",
 "C64": "a parser model of universal newlines, comment stripping, str.split and float(); inverse lemmas parser/specification by induction on the text; distinct doubles differ by at least 2^-53 of their size, so a decimal within 1/(2*10^16) of a double rounds to it; NaN rows block every path of a pattern that skips nothing (C28 + C58) (`TextFile.lean`, `SpecFile.lean`, `Props/TextFiles.lean`)",
 "C65": "explicit solution of the recurrence for the multiplication table, for any order of the three unit steps, and uniqueness of the solution; all sums below 2^53 so doubles are exact (`SelfTest.lean`, `Props/SelfTests.lean`)",
 "C66": "a correctly rounded square root from Nat.sqrt, proved nearest in the reals; the square root of the rounded square of a double in range is the double again; error of the accumulated sum of squares by induction on the columns; then C50, C15, C17, C58, C63, C64 through `Problem`; from samples to distance by composing the metric's error (relative stability C62_relative) with C49 (`Cdist.lean`, `Proofs/SqrtProof.lean`, `Props/Metric.lean`, `Props/EndToEnd.lean`)",
 "C67": "the kernel's decoding of the parameter vector, its relaxation loop, backtracking and counting read stored weights through rounding, marker test and truncation only; each is shown to give the same for storable weights, and the shipped weights to be storable (`Stored.lean`, `Props/StoredWeights.lean`)",
 "C68": "a prefix of the direction trace is a trace ending at the k-th corner; the smaller call has the same cells and directions (uniqueness of the recursion) and a trace is determined by its end point (`Props/Substructure.lean`); endings: paths of the ending extend the beginning, so its cost matrix dominates the rest of the whole one up to a constant; induction along the trace (`Props/Suffix.lean`)",
 "C69": "one relaxation never lowers a representable cost (monotone idempotent rounding), by induction along the trace; the trace crosses every band of rows by induction (`Props/Substructure.lean`)",
 "C70": "local costs compared entry by entry through the accumulation loop of cdist (induction over the columns, monotone rounding, monotone correctly rounded square root), then C26 (same matrix, same result) and C12 (monotone in the costs)",
 "C71": "a call as a program of single object accesses (`Verif/Threads.lean`), shown equal to the heap execution of Heap.lean; a logical relation between two copies of the program whose new objects have different addresses; invariant of the system of threads by induction on the schedule (`Proofs/ThreadsProof.lean`, `Props/Threads.lean`)",
 "C72": "an operational semantics of Python's import statements (`Verif/Imports.lean`) run on the import statements and definitions of all modules of the package (`Verif/Sources.lean`, generated from /repo); three package states are reachable, by case analysis on every statement and induction over the program; each state is a literal checked by the kernel (`ImportStates.lean`, `Props/Imports.lean`)",
 "C73": "`dtw_test_data.py` transcribed in `Verif/DemoData.lean` (sine, cosine and the random numbers are parameters); the relative error of a division and a multiplication in doubles for the time stamps, the reader of numerals of C64 for the tables, C74 for the call (`Props/DemoData.lean`)",
 "C74": "induction over the path: the running cost after i+j moves is a double of size at most (1 + 2^20 (i+j)) 2^910, by monotone rounding towards doubles; so the paths of usable cost are all paths, and the existence criteria of C02, C20, C22, C51 and C62 carry over from exact arithmetic (`Props/Totality.lean`), also with open ends (`Props/SlopeOpen.lean`)",
 "C75": "the rounded difference of two different doubles is not 0 (both are multiples of 2^-1074); then C54, C55 in doubles, C13 for powers of two, C70 for translation, through `askWith_problem` (`Props/SeriesDoubles.lean`, `Props/PowersOfTwo.lean`)",
 "C76": "induction over the warping path: the blocks of its points form a path of the coarse problem (a step inside a block is dropped, any other becomes a rule with the remaining advance and no greater weight); costs compared by monotonicity of rounded multiply-add; then C01, C02, C20, C22 (`Props/Coarse.lean`)",
 "C77": "dominance of the two recursions (paths of the dearer problem are paths of the other at no greater cost), then induction along the trace: at each of its cells the winning candidate is the same and the earlier ones are only dearer; ties by cancellation in exact sums and induction along any optimal path (`Props/Canonical.lean`)",
 "C78": "the cost of a rule sequence is linear in the local costs (induction over terms and path), so the best alignment of the sum, priced in each part, is not below that part's best; same for open ends via C20 and C22 (`Props/Mixture.lean`)",
 "C79": "imitation of a rule by a sequence of rules, lifted to alignments by induction, with the rounding of every sum monotone (C12); success and optimum by C02/C01, C20, C22; the bundled pairs by a verified search over rule sequences evaluated by the kernel (`Props/Hierarchy.lean`)",
 "C80": "if only one rule goes in the direction of the only cells that can be reached, there is exactly one alignment (induction over the path); optimum and success by C01, C02 (`Props/Lockstep.lean`)",
 "C81": "shift of the dynamic programme by k columns (`Bellman.across`, `Bellman.across_kept`), first-best under more candidates (Recording.lean)",
 "C82": "induction along the path: every rule adds between lo and hi times its weight; total weight from C19, normalization from C18",
 "C83": "the same rule sequence under the other pattern costs at most K times as much (induction), then optimality C01; tables checked by the kernel",
 "C84": "grouping the terms of a rule by row and by column bounds what one sample is charged; induction along the path, then optimality C01; constants checked by the kernel (Outliers.lean)",
 "C85": "the path found for the perturbed problem, priced in the original one, would beat the gap unless it is the same (C62/C84 along a fixed path, C01, C03); noisy copies: a path that leaves the diagonal is charged an off-diagonal cell (Winner.lean)",
 "C86": "lower bound from C76 (blocks); upper bound by following a path of the short series through the blocks, diagonally first (induction over the path), then optimality C01 (Hold.lean)",
 "C87": "second copy of the dtw code on an arbitrary machine type (Bits.lean), step-by-step refinement to the model (BitsProof.lean), 64-bit patterns decoded by fields, injectivity up to zeros and NaNs, surjectivity on doubles (Props/Bits.lean)",
 "C88": "the path found in doubles is near-optimal exactly (C49), so it is the clear winner; noise added by C85's argument; distances transferred by the relative error (RoundedWinner.lean)",
 "C89": "unit steps make the indices matched to one element consecutive, so a truncated mean is one of them; distinct cells of the curve sum to at most the path's cost (exactly, and through C49 in doubles); zero-cost path by induction for stretched copies (Warped.lean)",
 "C90": "least cost over warping curves (C53) evaluated for costs that depend on one coordinate: every curve pays each element once plus at least the smallest cost per surplus unit of weight (induction on the curve), and an explicit curve attains it; series and doubles as corollaries",
 "C91": "The offsets charged along a rule are a difference of partial sums (`OncePerQuery`, `EvenPerReference`), so the solution of the recursion is shifted by a potential; `Bellman.unique` and the last row give the outcome. Which bundled patterns qualify is decided on the table, `mvmStepPattern` by computation for every elasticity.",
 "C92": "The same sequence of rules is followed under two local costs (`WarpPath.related`, `OpenPath.related`) keeping an inequality: Cauchy-Schwarz with the weight charged so far, or `c' <= c^2`; optimality of each call gives the distances. Norm inequalities on lists of features give the metrics; the bundled patterns are decided.",
 "C93": "Model: the call on the mapped series (`List.map`), local costs as rounded differences. Proof: rounding is monotone, so no rounded difference grows; then monotonicity in the local costs (C12). Exact: the two-sided comparison of costs (C92).",
 "C94": "Model: `chargedCells` (weights and cells of an alignment, from stepsTaken). Proof: induction over paths - the cost of a path is the weighted sum over its cells whatever the local costs - so the old alignments are admissible for the new template (C01); regrouping by reference element; the mean minimises the weighted sum of squares, the median that of absolute differences.",
 "C95": "Model: warping paths with a given corner point (`coarse`). Proof: induction over paths - a path is cut at a corner into a path of the beginnings and one of the endings, costs add up - and the joining lemma of C68; optimality of the parts (C01). In doubles: C49 for the whole and the parts.",
 "C96": "Model: the two machines `binary64 true` and `binary64 false`, which differ in `mac` only. Proof: the products with a weight are exact, so the two recursions are the same system of equations, whose solution is unique (C01); the weights of the bundled patterns by evaluation; the rest from the error bound C49, applied to both.",
 "C97": "Model: a sequence of `dtw` calls whose cost matrices are masked by the `index2` of the earlier ones. Proof: the recursion is monotone when costs become dearer or NaN (C77), forbidden cells are never drawn (C58), a count of disjoint sets; the placements from C59.",
 "C98": "Model: the search of C59 with a reference that is written twice. Proof: the offsets 1..n of `rigid` are the n rotations; the rest is algebra of the sum of absolute differences under `List.rotate`. In doubles: C49_any_ends gives the path in exact arithmetic and its near-optimality."
}
import Verif.Imports0

/-!
# The statements of the package that bind names

Generated by tools/gen_sources.py from the source text: every top-level statement of every module, in order, without doc strings
and the two `if` statements that bind nothing (dtw/__init__.py:32-35, dtw/__main__.py:48-49).
-/

namespace DTW.Imports

/-- dtw/__init__.py:10-31 -/
def src_dtw : List Stmt := [
  .bind .value "__author__",
  .bind .value "__email__",
  .bind .value "__version__",
  .star ["dtw", "dtw"],
  .star ["dtw", "stepPattern"],
  .star ["dtw", "countPaths"],
  .star ["dtw", "dtwPlot"],
  .star ["dtw", "mvm"],
  .star ["dtw", "warp"],
  .star ["dtw", "warpArea"],
  .star ["dtw", "window"],
  .fromImp ["dtw"] "dtw_test_data" "dtw_test_data",
  .imp ["sys"] none,
  .imp ["__main__"] (some "main")]

/-- dtw/__main__.py:4-28 -/
def src_dtw___main__ : List Stmt := [
  .imp ["sys"] none,
  .imp ["numpy"] none,
  .imp ["dtw"] none,
  .imp ["argparse"] none,
  .bind .function "main2",
  .bind .function "main"]

/-- dtw/_backtrack.py:21-26 -/
def src_dtw__backtrack : List Stmt := [
  .imp ["numpy"] none,
  .bind .value "_INT_MIN",
  .bind .function "_backtrack"]

/-- dtw/_globalCostMatrix.py:1-46 -/
def src_dtw__globalCostMatrix : List Stmt := [
  .imp ["numpy"] none,
  .fromImp ["dtw", "window"] "noWindow" "noWindow",
  .fromImp ["dtw", "_dtw_utils"] "_computeCM_wrapper" "_computeCM_wrapper",
  .bind .function "_globalCostMatrix",
  .bind .function "_test_computeCM2"]

/-- dtw/countPaths.py:22-25 -/
def src_dtw_countPaths : List Stmt := [
  .imp ["numpy"] none,
  .bind .function "countPaths"]

/-- dtw/dtw.py:31-514 -/
def src_dtw_dtw : List Stmt := [
  .imp ["numpy"] none,
  .imp ["sys"] none,
  .star ["dtw", "stepPattern"],
  .fromImp ["dtw", "_backtrack"] "_backtrack" "_backtrack",
  .fromImp ["dtw", "_globalCostMatrix"] "_globalCostMatrix" "_globalCostMatrix",
  .star ["dtw", "window"],
  .star ["dtw", "dtwPlot"],
  .imp ["scipy", "spatial", "distance"] none,
  .bind .cls "DTW",
  .bind .function "dtw",
  .bind .function "_canonicalizeWindowFunction",
  .bind .function "_canonicalizeStepPattern",
  .bind .function "_error"]

/-- dtw/dtwPlot.py:22-321 -/
def src_dtw_dtwPlot : List Stmt := [
  .imp ["numpy"] none,
  .bind .function "dtwPlot",
  .bind .function "dtwPlotAlignment",
  .bind .function "dtwPlotTwoWay",
  .bind .function "dtwPlotThreeWay",
  .bind .function "dtwPlotDensity"]

/-- dtw/dtw_test_data.py:23-92 -/
def src_dtw_dtw_test_data : List Stmt := [
  .imp ["numpy"] none,
  .fromImp ["pkgutil"] "get_data" "get_data",
  .bind .function "aami",
  .bind .function "sin_cos"]

/-- dtw/mvm.py:23-26 -/
def src_dtw_mvm : List Stmt := [
  .fromImp ["dtw", "stepPattern"] "StepPattern" "StepPattern",
  .imp ["numpy"] none,
  .bind .function "mvmStepPattern"]

/-- dtw/stepPattern.py:25-989 -/
def src_dtw_stepPattern : List Stmt := [
  .imp ["numpy"] none,
  .bind .cls "StepPattern",
  .bind .function "_c",
  .bind .function "_error",
  .bind .cls "_P",
  .bind .function "rabinerJuangStepPattern",
  .bind .function "_RJtypeI",
  .bind .function "_RJtypeII",
  .bind .function "_RJtypeIII",
  .bind .function "_RJtypeIV",
  .bind .function "_RJtypeV",
  .bind .function "_RJtypeVI",
  .bind .function "_RJtypeVII",
  .bind .pattern "symmetric1",
  .bind .pattern "symmetric2",
  .bind .pattern "asymmetric",
  .bind .pattern "_symmetricVelichkoZagoruyko",
  .bind .pattern "_asymmetricItakura",
  .alias "symmetricP0" "symmetric2",
  .bind .pattern "asymmetricP0",
  .bind .pattern "_asymmetricP0b",
  .bind .pattern "symmetricP05",
  .bind .pattern "asymmetricP05",
  .bind .pattern "symmetricP1",
  .bind .pattern "asymmetricP1",
  .bind .pattern "symmetricP2",
  .bind .pattern "asymmetricP2",
  .bind .pattern "typeIa",
  .bind .pattern "typeIb",
  .bind .pattern "typeIc",
  .bind .pattern "typeId",
  .bind .pattern "typeIas",
  .bind .pattern "typeIbs",
  .bind .pattern "typeIcs",
  .bind .pattern "typeIds",
  .bind .pattern "typeIIa",
  .bind .pattern "typeIIb",
  .bind .pattern "typeIIc",
  .bind .pattern "typeIId",
  .bind .pattern "typeIIIc",
  .bind .pattern "typeIVc",
  .bind .pattern "mori2006",
  .bind .pattern "rigid"]

/-- dtw/warp.py:22-38 -/
def src_dtw_warp : List Stmt := [
  .imp ["numpy"] none,
  .imp ["scipy", "interpolate"] none,
  .bind .function "_solveTies",
  .bind .function "_interp",
  .bind .function "warp"]

/-- dtw/warpArea.py:22-26 -/
def src_dtw_warpArea : List Stmt := [
  .imp ["numpy"] none,
  .imp ["scipy", "interpolate"] none,
  .bind .function "warpArea"]

/-- dtw/window.py:143-162 -/
def src_dtw_window : List Stmt := [
  .bind .function "noWindow",
  .bind .function "sakoeChibaWindow",
  .bind .function "itakuraWindow",
  .bind .function "slantedBandWindow"]

/-- dtw/_dtw_utils.pyx:33-85 -/
def src_dtw__dtw_utils : List Stmt := [
  .imp ["warnings"] none,
  .imp ["numpy"] (some "np"),
  .exports ["_computeCM_wrapper"],
  .bind .function "_computeCM_wrapper",
  .bind .function "_test_computeCM"]

/-- The modules of the package. -/
def sources : List (String × List Stmt) := [
  ("dtw", src_dtw),
  ("dtw.__main__", src_dtw___main__),
  ("dtw._backtrack", src_dtw__backtrack),
  ("dtw._globalCostMatrix", src_dtw__globalCostMatrix),
  ("dtw.countPaths", src_dtw_countPaths),
  ("dtw.dtw", src_dtw_dtw),
  ("dtw.dtwPlot", src_dtw_dtwPlot),
  ("dtw.dtw_test_data", src_dtw_dtw_test_data),
  ("dtw.mvm", src_dtw_mvm),
  ("dtw.stepPattern", src_dtw_stepPattern),
  ("dtw.warp", src_dtw_warp),
  ("dtw.warpArea", src_dtw_warpArea),
  ("dtw.window", src_dtw_window),
  ("dtw._dtw_utils", src_dtw__dtw_utils)]

end DTW.Imports

import Verif.Imports

/-!
# The package when it is loaded

Generated by tools/gen_import_states.sh; checked in Props/Imports.lean.
-/

namespace DTW.Imports

/-- After `import dtw` in a fresh interpreter. -/
def S0 : Pkg where
  mods := [
    ("dtw", [("main", .external "__main__"),
      ("sys", .external "sys"),
      ("dtw_test_data", .module "dtw.dtw_test_data"),
      ("noWindow", .obj .function "dtw.window" "noWindow" 1),
      ("sakoeChibaWindow", .obj .function "dtw.window" "sakoeChibaWindow" 1),
      ("itakuraWindow", .obj .function "dtw.window" "itakuraWindow" 1),
      ("slantedBandWindow", .obj .function "dtw.window" "slantedBandWindow" 1),
      ("numpy", .external "numpy"),
      ("scipy", .external "scipy"),
      ("warpArea", .obj .function "dtw.warpArea" "warpArea" 1),
      ("warp", .obj .function "dtw.warp" "warp" 1),
      ("StepPattern", .obj .cls "dtw.stepPattern" "StepPattern" 1),
      ("mvmStepPattern", .obj .function "dtw.mvm" "mvmStepPattern" 1),
      ("mvm", .module "dtw.mvm"),
      ("dtwPlot", .obj .function "dtw.dtwPlot" "dtwPlot" 1),
      ("dtwPlotAlignment", .obj .function "dtw.dtwPlot" "dtwPlotAlignment" 1),
      ("dtwPlotTwoWay", .obj .function "dtw.dtwPlot" "dtwPlotTwoWay" 1),
      ("dtwPlotThreeWay", .obj .function "dtw.dtwPlot" "dtwPlotThreeWay" 1),
      ("dtwPlotDensity", .obj .function "dtw.dtwPlot" "dtwPlotDensity" 1),
      ("countPaths", .obj .function "dtw.countPaths" "countPaths" 1),
      ("rabinerJuangStepPattern", .obj .function "dtw.stepPattern" "rabinerJuangStepPattern" 1),
      ("symmetric1", .obj .pattern "dtw.stepPattern" "symmetric1" 1),
      ("symmetric2", .obj .pattern "dtw.stepPattern" "symmetric2" 1),
      ("asymmetric", .obj .pattern "dtw.stepPattern" "asymmetric" 1),
      ("symmetricP0", .obj .pattern "dtw.stepPattern" "symmetric2" 1),
      ("asymmetricP0", .obj .pattern "dtw.stepPattern" "asymmetricP0" 1),
      ("symmetricP05", .obj .pattern "dtw.stepPattern" "symmetricP05" 1),
      ("asymmetricP05", .obj .pattern "dtw.stepPattern" "asymmetricP05" 1),
      ("symmetricP1", .obj .pattern "dtw.stepPattern" "symmetricP1" 1),
      ("asymmetricP1", .obj .pattern "dtw.stepPattern" "asymmetricP1" 1),
      ("symmetricP2", .obj .pattern "dtw.stepPattern" "symmetricP2" 1),
      ("asymmetricP2", .obj .pattern "dtw.stepPattern" "asymmetricP2" 1),
      ("typeIa", .obj .pattern "dtw.stepPattern" "typeIa" 1),
      ("typeIb", .obj .pattern "dtw.stepPattern" "typeIb" 1),
      ("typeIc", .obj .pattern "dtw.stepPattern" "typeIc" 1),
      ("typeId", .obj .pattern "dtw.stepPattern" "typeId" 1),
      ("typeIas", .obj .pattern "dtw.stepPattern" "typeIas" 1),
      ("typeIbs", .obj .pattern "dtw.stepPattern" "typeIbs" 1),
      ("typeIcs", .obj .pattern "dtw.stepPattern" "typeIcs" 1),
      ("typeIds", .obj .pattern "dtw.stepPattern" "typeIds" 1),
      ("typeIIa", .obj .pattern "dtw.stepPattern" "typeIIa" 1),
      ("typeIIb", .obj .pattern "dtw.stepPattern" "typeIIb" 1),
      ("typeIIc", .obj .pattern "dtw.stepPattern" "typeIIc" 1),
      ("typeIId", .obj .pattern "dtw.stepPattern" "typeIId" 1),
      ("typeIIIc", .obj .pattern "dtw.stepPattern" "typeIIIc" 1),
      ("typeIVc", .obj .pattern "dtw.stepPattern" "typeIVc" 1),
      ("mori2006", .obj .pattern "dtw.stepPattern" "mori2006" 1),
      ("rigid", .obj .pattern "dtw.stepPattern" "rigid" 1),
      ("DTW", .obj .cls "dtw.dtw" "DTW" 1),
      ("dtw", .obj .function "dtw.dtw" "dtw" 1),
      ("_globalCostMatrix", .module "dtw._globalCostMatrix"),
      ("_dtw_utils", .module "dtw._dtw_utils"),
      ("window", .module "dtw.window"),
      ("_backtrack", .module "dtw._backtrack"),
      ("stepPattern", .module "dtw.stepPattern"),
      ("__version__", .obj .value "dtw" "__version__" 1),
      ("__email__", .obj .value "dtw" "__email__" 1),
      ("__author__", .obj .value "dtw" "__author__" 1)]),
    ("dtw.dtw", [("_error", .obj .function "dtw.dtw" "_error" 1),
      ("_canonicalizeStepPattern", .obj .function "dtw.dtw" "_canonicalizeStepPattern" 1),
      ("_canonicalizeWindowFunction", .obj .function "dtw.dtw" "_canonicalizeWindowFunction" 1),
      ("dtw", .obj .function "dtw.dtw" "dtw" 1),
      ("DTW", .obj .cls "dtw.dtw" "DTW" 1),
      ("scipy", .external "scipy"),
      ("numpy", .external "numpy"),
      ("dtwPlot", .obj .function "dtw.dtwPlot" "dtwPlot" 1),
      ("dtwPlotAlignment", .obj .function "dtw.dtwPlot" "dtwPlotAlignment" 1),
      ("dtwPlotTwoWay", .obj .function "dtw.dtwPlot" "dtwPlotTwoWay" 1),
      ("dtwPlotThreeWay", .obj .function "dtw.dtwPlot" "dtwPlotThreeWay" 1),
      ("dtwPlotDensity", .obj .function "dtw.dtwPlot" "dtwPlotDensity" 1),
      ("noWindow", .obj .function "dtw.window" "noWindow" 1),
      ("sakoeChibaWindow", .obj .function "dtw.window" "sakoeChibaWindow" 1),
      ("itakuraWindow", .obj .function "dtw.window" "itakuraWindow" 1),
      ("slantedBandWindow", .obj .function "dtw.window" "slantedBandWindow" 1),
      ("_globalCostMatrix", .obj .function "dtw._globalCostMatrix" "_globalCostMatrix" 1),
      ("_backtrack", .obj .function "dtw._backtrack" "_backtrack" 1),
      ("StepPattern", .obj .cls "dtw.stepPattern" "StepPattern" 1),
      ("rabinerJuangStepPattern", .obj .function "dtw.stepPattern" "rabinerJuangStepPattern" 1),
      ("symmetric1", .obj .pattern "dtw.stepPattern" "symmetric1" 1),
      ("symmetric2", .obj .pattern "dtw.stepPattern" "symmetric2" 1),
      ("asymmetric", .obj .pattern "dtw.stepPattern" "asymmetric" 1),
      ("symmetricP0", .obj .pattern "dtw.stepPattern" "symmetric2" 1),
      ("asymmetricP0", .obj .pattern "dtw.stepPattern" "asymmetricP0" 1),
      ("symmetricP05", .obj .pattern "dtw.stepPattern" "symmetricP05" 1),
      ("asymmetricP05", .obj .pattern "dtw.stepPattern" "asymmetricP05" 1),
      ("symmetricP1", .obj .pattern "dtw.stepPattern" "symmetricP1" 1),
      ("asymmetricP1", .obj .pattern "dtw.stepPattern" "asymmetricP1" 1),
      ("symmetricP2", .obj .pattern "dtw.stepPattern" "symmetricP2" 1),
      ("asymmetricP2", .obj .pattern "dtw.stepPattern" "asymmetricP2" 1),
      ("typeIa", .obj .pattern "dtw.stepPattern" "typeIa" 1),
      ("typeIb", .obj .pattern "dtw.stepPattern" "typeIb" 1),
      ("typeIc", .obj .pattern "dtw.stepPattern" "typeIc" 1),
      ("typeId", .obj .pattern "dtw.stepPattern" "typeId" 1),
      ("typeIas", .obj .pattern "dtw.stepPattern" "typeIas" 1),
      ("typeIbs", .obj .pattern "dtw.stepPattern" "typeIbs" 1),
      ("typeIcs", .obj .pattern "dtw.stepPattern" "typeIcs" 1),
      ("typeIds", .obj .pattern "dtw.stepPattern" "typeIds" 1),
      ("typeIIa", .obj .pattern "dtw.stepPattern" "typeIIa" 1),
      ("typeIIb", .obj .pattern "dtw.stepPattern" "typeIIb" 1),
      ("typeIIc", .obj .pattern "dtw.stepPattern" "typeIIc" 1),
      ("typeIId", .obj .pattern "dtw.stepPattern" "typeIId" 1),
      ("typeIIIc", .obj .pattern "dtw.stepPattern" "typeIIIc" 1),
      ("typeIVc", .obj .pattern "dtw.stepPattern" "typeIVc" 1),
      ("mori2006", .obj .pattern "dtw.stepPattern" "mori2006" 1),
      ("rigid", .obj .pattern "dtw.stepPattern" "rigid" 1),
      ("sys", .external "sys")]),
    ("dtw.stepPattern", [("rigid", .obj .pattern "dtw.stepPattern" "rigid" 1),
      ("mori2006", .obj .pattern "dtw.stepPattern" "mori2006" 1),
      ("typeIVc", .obj .pattern "dtw.stepPattern" "typeIVc" 1),
      ("typeIIIc", .obj .pattern "dtw.stepPattern" "typeIIIc" 1),
      ("typeIId", .obj .pattern "dtw.stepPattern" "typeIId" 1),
      ("typeIIc", .obj .pattern "dtw.stepPattern" "typeIIc" 1),
      ("typeIIb", .obj .pattern "dtw.stepPattern" "typeIIb" 1),
      ("typeIIa", .obj .pattern "dtw.stepPattern" "typeIIa" 1),
      ("typeIds", .obj .pattern "dtw.stepPattern" "typeIds" 1),
      ("typeIcs", .obj .pattern "dtw.stepPattern" "typeIcs" 1),
      ("typeIbs", .obj .pattern "dtw.stepPattern" "typeIbs" 1),
      ("typeIas", .obj .pattern "dtw.stepPattern" "typeIas" 1),
      ("typeId", .obj .pattern "dtw.stepPattern" "typeId" 1),
      ("typeIc", .obj .pattern "dtw.stepPattern" "typeIc" 1),
      ("typeIb", .obj .pattern "dtw.stepPattern" "typeIb" 1),
      ("typeIa", .obj .pattern "dtw.stepPattern" "typeIa" 1),
      ("asymmetricP2", .obj .pattern "dtw.stepPattern" "asymmetricP2" 1),
      ("symmetricP2", .obj .pattern "dtw.stepPattern" "symmetricP2" 1),
      ("asymmetricP1", .obj .pattern "dtw.stepPattern" "asymmetricP1" 1),
      ("symmetricP1", .obj .pattern "dtw.stepPattern" "symmetricP1" 1),
      ("asymmetricP05", .obj .pattern "dtw.stepPattern" "asymmetricP05" 1),
      ("symmetricP05", .obj .pattern "dtw.stepPattern" "symmetricP05" 1),
      ("_asymmetricP0b", .obj .pattern "dtw.stepPattern" "_asymmetricP0b" 1),
      ("asymmetricP0", .obj .pattern "dtw.stepPattern" "asymmetricP0" 1),
      ("symmetricP0", .obj .pattern "dtw.stepPattern" "symmetric2" 1),
      ("_asymmetricItakura", .obj .pattern "dtw.stepPattern" "_asymmetricItakura" 1),
      ("_symmetricVelichkoZagoruyko", .obj .pattern "dtw.stepPattern" "_symmetricVelichkoZagoruyko" 1),
      ("asymmetric", .obj .pattern "dtw.stepPattern" "asymmetric" 1),
      ("symmetric2", .obj .pattern "dtw.stepPattern" "symmetric2" 1),
      ("symmetric1", .obj .pattern "dtw.stepPattern" "symmetric1" 1),
      ("_RJtypeVII", .obj .function "dtw.stepPattern" "_RJtypeVII" 1),
      ("_RJtypeVI", .obj .function "dtw.stepPattern" "_RJtypeVI" 1),
      ("_RJtypeV", .obj .function "dtw.stepPattern" "_RJtypeV" 1),
      ("_RJtypeIV", .obj .function "dtw.stepPattern" "_RJtypeIV" 1),
      ("_RJtypeIII", .obj .function "dtw.stepPattern" "_RJtypeIII" 1),
      ("_RJtypeII", .obj .function "dtw.stepPattern" "_RJtypeII" 1),
      ("_RJtypeI", .obj .function "dtw.stepPattern" "_RJtypeI" 1),
      ("rabinerJuangStepPattern", .obj .function "dtw.stepPattern" "rabinerJuangStepPattern" 1),
      ("_P", .obj .cls "dtw.stepPattern" "_P" 1),
      ("_error", .obj .function "dtw.stepPattern" "_error" 1),
      ("_c", .obj .function "dtw.stepPattern" "_c" 1),
      ("StepPattern", .obj .cls "dtw.stepPattern" "StepPattern" 1),
      ("numpy", .external "numpy")]),
    ("dtw._backtrack", [("_backtrack", .obj .function "dtw._backtrack" "_backtrack" 1),
      ("_INT_MIN", .obj .value "dtw._backtrack" "_INT_MIN" 1),
      ("numpy", .external "numpy")]),
    ("dtw._globalCostMatrix", [("_test_computeCM2", .obj .function "dtw._globalCostMatrix" "_test_computeCM2" 1),
      ("_globalCostMatrix", .obj .function "dtw._globalCostMatrix" "_globalCostMatrix" 1),
      ("_computeCM_wrapper", .obj .function "dtw._dtw_utils" "_computeCM_wrapper" 1),
      ("noWindow", .obj .function "dtw.window" "noWindow" 1),
      ("numpy", .external "numpy")]),
    ("dtw.window", [("slantedBandWindow", .obj .function "dtw.window" "slantedBandWindow" 1),
      ("itakuraWindow", .obj .function "dtw.window" "itakuraWindow" 1),
      ("sakoeChibaWindow", .obj .function "dtw.window" "sakoeChibaWindow" 1),
      ("noWindow", .obj .function "dtw.window" "noWindow" 1)]),
    ("dtw._dtw_utils", [("_test_computeCM", .obj .function "dtw._dtw_utils" "_test_computeCM" 1),
      ("_computeCM_wrapper", .obj .function "dtw._dtw_utils" "_computeCM_wrapper" 1),
      ("__all__", .obj .value "dtw._dtw_utils" "__all__" 1),
      ("np", .external "numpy"),
      ("warnings", .external "warnings")]),
    ("dtw.dtwPlot", [("dtwPlotDensity", .obj .function "dtw.dtwPlot" "dtwPlotDensity" 1),
      ("dtwPlotThreeWay", .obj .function "dtw.dtwPlot" "dtwPlotThreeWay" 1),
      ("dtwPlotTwoWay", .obj .function "dtw.dtwPlot" "dtwPlotTwoWay" 1),
      ("dtwPlotAlignment", .obj .function "dtw.dtwPlot" "dtwPlotAlignment" 1),
      ("dtwPlot", .obj .function "dtw.dtwPlot" "dtwPlot" 1),
      ("numpy", .external "numpy")]),
    ("dtw.countPaths", [("countPaths", .obj .function "dtw.countPaths" "countPaths" 1),
      ("numpy", .external "numpy")]),
    ("dtw.mvm", [("mvmStepPattern", .obj .function "dtw.mvm" "mvmStepPattern" 1),
      ("numpy", .external "numpy"),
      ("StepPattern", .obj .cls "dtw.stepPattern" "StepPattern" 1)]),
    ("dtw.warp", [("warp", .obj .function "dtw.warp" "warp" 1),
      ("_interp", .obj .function "dtw.warp" "_interp" 1),
      ("_solveTies", .obj .function "dtw.warp" "_solveTies" 1),
      ("scipy", .external "scipy"),
      ("numpy", .external "numpy")]),
    ("dtw.warpArea", [("warpArea", .obj .function "dtw.warpArea" "warpArea" 1),
      ("scipy", .external "scipy"),
      ("numpy", .external "numpy")]),
    ("dtw.dtw_test_data", [("sin_cos", .obj .function "dtw.dtw_test_data" "sin_cos" 1),
      ("aami", .obj .function "dtw.dtw_test_data" "aami" 1),
      ("get_data", .external "pkgutil.get_data"),
      ("numpy", .external "numpy")])]
  runs := ["dtw.dtw_test_data", "dtw.warpArea", "dtw.warp", "dtw.mvm", "dtw.countPaths", "dtw.dtwPlot", "dtw._dtw_utils", "dtw.window", "dtw._globalCostMatrix", "dtw._backtrack", "dtw.stepPattern", "dtw.dtw", "dtw"]

/-- … followed by `import dtw.__main__`. -/
def S1 : Pkg where
  mods := [
    ("dtw", [("__main__", .module "dtw.__main__"),
      ("main", .external "__main__"),
      ("sys", .external "sys"),
      ("dtw_test_data", .module "dtw.dtw_test_data"),
      ("noWindow", .obj .function "dtw.window" "noWindow" 1),
      ("sakoeChibaWindow", .obj .function "dtw.window" "sakoeChibaWindow" 1),
      ("itakuraWindow", .obj .function "dtw.window" "itakuraWindow" 1),
      ("slantedBandWindow", .obj .function "dtw.window" "slantedBandWindow" 1),
      ("numpy", .external "numpy"),
      ("scipy", .external "scipy"),
      ("warpArea", .obj .function "dtw.warpArea" "warpArea" 1),
      ("warp", .obj .function "dtw.warp" "warp" 1),
      ("StepPattern", .obj .cls "dtw.stepPattern" "StepPattern" 1),
      ("mvmStepPattern", .obj .function "dtw.mvm" "mvmStepPattern" 1),
      ("mvm", .module "dtw.mvm"),
      ("dtwPlot", .obj .function "dtw.dtwPlot" "dtwPlot" 1),
      ("dtwPlotAlignment", .obj .function "dtw.dtwPlot" "dtwPlotAlignment" 1),
      ("dtwPlotTwoWay", .obj .function "dtw.dtwPlot" "dtwPlotTwoWay" 1),
      ("dtwPlotThreeWay", .obj .function "dtw.dtwPlot" "dtwPlotThreeWay" 1),
      ("dtwPlotDensity", .obj .function "dtw.dtwPlot" "dtwPlotDensity" 1),
      ("countPaths", .obj .function "dtw.countPaths" "countPaths" 1),
      ("rabinerJuangStepPattern", .obj .function "dtw.stepPattern" "rabinerJuangStepPattern" 1),
      ("symmetric1", .obj .pattern "dtw.stepPattern" "symmetric1" 1),
      ("symmetric2", .obj .pattern "dtw.stepPattern" "symmetric2" 1),
      ("asymmetric", .obj .pattern "dtw.stepPattern" "asymmetric" 1),
      ("symmetricP0", .obj .pattern "dtw.stepPattern" "symmetric2" 1),
      ("asymmetricP0", .obj .pattern "dtw.stepPattern" "asymmetricP0" 1),
      ("symmetricP05", .obj .pattern "dtw.stepPattern" "symmetricP05" 1),
      ("asymmetricP05", .obj .pattern "dtw.stepPattern" "asymmetricP05" 1),
      ("symmetricP1", .obj .pattern "dtw.stepPattern" "symmetricP1" 1),
      ("asymmetricP1", .obj .pattern "dtw.stepPattern" "asymmetricP1" 1),
      ("symmetricP2", .obj .pattern "dtw.stepPattern" "symmetricP2" 1),
      ("asymmetricP2", .obj .pattern "dtw.stepPattern" "asymmetricP2" 1),
      ("typeIa", .obj .pattern "dtw.stepPattern" "typeIa" 1),
      ("typeIb", .obj .pattern "dtw.stepPattern" "typeIb" 1),
      ("typeIc", .obj .pattern "dtw.stepPattern" "typeIc" 1),
      ("typeId", .obj .pattern "dtw.stepPattern" "typeId" 1),
      ("typeIas", .obj .pattern "dtw.stepPattern" "typeIas" 1),
      ("typeIbs", .obj .pattern "dtw.stepPattern" "typeIbs" 1),
      ("typeIcs", .obj .pattern "dtw.stepPattern" "typeIcs" 1),
      ("typeIds", .obj .pattern "dtw.stepPattern" "typeIds" 1),
      ("typeIIa", .obj .pattern "dtw.stepPattern" "typeIIa" 1),
      ("typeIIb", .obj .pattern "dtw.stepPattern" "typeIIb" 1),
      ("typeIIc", .obj .pattern "dtw.stepPattern" "typeIIc" 1),
      ("typeIId", .obj .pattern "dtw.stepPattern" "typeIId" 1),
      ("typeIIIc", .obj .pattern "dtw.stepPattern" "typeIIIc" 1),
      ("typeIVc", .obj .pattern "dtw.stepPattern" "typeIVc" 1),
      ("mori2006", .obj .pattern "dtw.stepPattern" "mori2006" 1),
      ("rigid", .obj .pattern "dtw.stepPattern" "rigid" 1),
      ("DTW", .obj .cls "dtw.dtw" "DTW" 1),
      ("dtw", .obj .function "dtw.dtw" "dtw" 1),
      ("_globalCostMatrix", .module "dtw._globalCostMatrix"),
      ("_dtw_utils", .module "dtw._dtw_utils"),
      ("window", .module "dtw.window"),
      ("_backtrack", .module "dtw._backtrack"),
      ("stepPattern", .module "dtw.stepPattern"),
      ("__version__", .obj .value "dtw" "__version__" 1),
      ("__email__", .obj .value "dtw" "__email__" 1),
      ("__author__", .obj .value "dtw" "__author__" 1)]),
    ("dtw.dtw", [("_error", .obj .function "dtw.dtw" "_error" 1),
      ("_canonicalizeStepPattern", .obj .function "dtw.dtw" "_canonicalizeStepPattern" 1),
      ("_canonicalizeWindowFunction", .obj .function "dtw.dtw" "_canonicalizeWindowFunction" 1),
      ("dtw", .obj .function "dtw.dtw" "dtw" 1),
      ("DTW", .obj .cls "dtw.dtw" "DTW" 1),
      ("scipy", .external "scipy"),
      ("numpy", .external "numpy"),
      ("dtwPlot", .obj .function "dtw.dtwPlot" "dtwPlot" 1),
      ("dtwPlotAlignment", .obj .function "dtw.dtwPlot" "dtwPlotAlignment" 1),
      ("dtwPlotTwoWay", .obj .function "dtw.dtwPlot" "dtwPlotTwoWay" 1),
      ("dtwPlotThreeWay", .obj .function "dtw.dtwPlot" "dtwPlotThreeWay" 1),
      ("dtwPlotDensity", .obj .function "dtw.dtwPlot" "dtwPlotDensity" 1),
      ("noWindow", .obj .function "dtw.window" "noWindow" 1),
      ("sakoeChibaWindow", .obj .function "dtw.window" "sakoeChibaWindow" 1),
      ("itakuraWindow", .obj .function "dtw.window" "itakuraWindow" 1),
      ("slantedBandWindow", .obj .function "dtw.window" "slantedBandWindow" 1),
      ("_globalCostMatrix", .obj .function "dtw._globalCostMatrix" "_globalCostMatrix" 1),
      ("_backtrack", .obj .function "dtw._backtrack" "_backtrack" 1),
      ("StepPattern", .obj .cls "dtw.stepPattern" "StepPattern" 1),
      ("rabinerJuangStepPattern", .obj .function "dtw.stepPattern" "rabinerJuangStepPattern" 1),
      ("symmetric1", .obj .pattern "dtw.stepPattern" "symmetric1" 1),
      ("symmetric2", .obj .pattern "dtw.stepPattern" "symmetric2" 1),
      ("asymmetric", .obj .pattern "dtw.stepPattern" "asymmetric" 1),
      ("symmetricP0", .obj .pattern "dtw.stepPattern" "symmetric2" 1),
      ("asymmetricP0", .obj .pattern "dtw.stepPattern" "asymmetricP0" 1),
      ("symmetricP05", .obj .pattern "dtw.stepPattern" "symmetricP05" 1),
      ("asymmetricP05", .obj .pattern "dtw.stepPattern" "asymmetricP05" 1),
      ("symmetricP1", .obj .pattern "dtw.stepPattern" "symmetricP1" 1),
      ("asymmetricP1", .obj .pattern "dtw.stepPattern" "asymmetricP1" 1),
      ("symmetricP2", .obj .pattern "dtw.stepPattern" "symmetricP2" 1),
      ("asymmetricP2", .obj .pattern "dtw.stepPattern" "asymmetricP2" 1),
      ("typeIa", .obj .pattern "dtw.stepPattern" "typeIa" 1),
      ("typeIb", .obj .pattern "dtw.stepPattern" "typeIb" 1),
      ("typeIc", .obj .pattern "dtw.stepPattern" "typeIc" 1),
      ("typeId", .obj .pattern "dtw.stepPattern" "typeId" 1),
      ("typeIas", .obj .pattern "dtw.stepPattern" "typeIas" 1),
      ("typeIbs", .obj .pattern "dtw.stepPattern" "typeIbs" 1),
      ("typeIcs", .obj .pattern "dtw.stepPattern" "typeIcs" 1),
      ("typeIds", .obj .pattern "dtw.stepPattern" "typeIds" 1),
      ("typeIIa", .obj .pattern "dtw.stepPattern" "typeIIa" 1),
      ("typeIIb", .obj .pattern "dtw.stepPattern" "typeIIb" 1),
      ("typeIIc", .obj .pattern "dtw.stepPattern" "typeIIc" 1),
      ("typeIId", .obj .pattern "dtw.stepPattern" "typeIId" 1),
      ("typeIIIc", .obj .pattern "dtw.stepPattern" "typeIIIc" 1),
      ("typeIVc", .obj .pattern "dtw.stepPattern" "typeIVc" 1),
      ("mori2006", .obj .pattern "dtw.stepPattern" "mori2006" 1),
      ("rigid", .obj .pattern "dtw.stepPattern" "rigid" 1),
      ("sys", .external "sys")]),
    ("dtw.stepPattern", [("rigid", .obj .pattern "dtw.stepPattern" "rigid" 1),
      ("mori2006", .obj .pattern "dtw.stepPattern" "mori2006" 1),
      ("typeIVc", .obj .pattern "dtw.stepPattern" "typeIVc" 1),
      ("typeIIIc", .obj .pattern "dtw.stepPattern" "typeIIIc" 1),
      ("typeIId", .obj .pattern "dtw.stepPattern" "typeIId" 1),
      ("typeIIc", .obj .pattern "dtw.stepPattern" "typeIIc" 1),
      ("typeIIb", .obj .pattern "dtw.stepPattern" "typeIIb" 1),
      ("typeIIa", .obj .pattern "dtw.stepPattern" "typeIIa" 1),
      ("typeIds", .obj .pattern "dtw.stepPattern" "typeIds" 1),
      ("typeIcs", .obj .pattern "dtw.stepPattern" "typeIcs" 1),
      ("typeIbs", .obj .pattern "dtw.stepPattern" "typeIbs" 1),
      ("typeIas", .obj .pattern "dtw.stepPattern" "typeIas" 1),
      ("typeId", .obj .pattern "dtw.stepPattern" "typeId" 1),
      ("typeIc", .obj .pattern "dtw.stepPattern" "typeIc" 1),
      ("typeIb", .obj .pattern "dtw.stepPattern" "typeIb" 1),
      ("typeIa", .obj .pattern "dtw.stepPattern" "typeIa" 1),
      ("asymmetricP2", .obj .pattern "dtw.stepPattern" "asymmetricP2" 1),
      ("symmetricP2", .obj .pattern "dtw.stepPattern" "symmetricP2" 1),
      ("asymmetricP1", .obj .pattern "dtw.stepPattern" "asymmetricP1" 1),
      ("symmetricP1", .obj .pattern "dtw.stepPattern" "symmetricP1" 1),
      ("asymmetricP05", .obj .pattern "dtw.stepPattern" "asymmetricP05" 1),
      ("symmetricP05", .obj .pattern "dtw.stepPattern" "symmetricP05" 1),
      ("_asymmetricP0b", .obj .pattern "dtw.stepPattern" "_asymmetricP0b" 1),
      ("asymmetricP0", .obj .pattern "dtw.stepPattern" "asymmetricP0" 1),
      ("symmetricP0", .obj .pattern "dtw.stepPattern" "symmetric2" 1),
      ("_asymmetricItakura", .obj .pattern "dtw.stepPattern" "_asymmetricItakura" 1),
      ("_symmetricVelichkoZagoruyko", .obj .pattern "dtw.stepPattern" "_symmetricVelichkoZagoruyko" 1),
      ("asymmetric", .obj .pattern "dtw.stepPattern" "asymmetric" 1),
      ("symmetric2", .obj .pattern "dtw.stepPattern" "symmetric2" 1),
      ("symmetric1", .obj .pattern "dtw.stepPattern" "symmetric1" 1),
      ("_RJtypeVII", .obj .function "dtw.stepPattern" "_RJtypeVII" 1),
      ("_RJtypeVI", .obj .function "dtw.stepPattern" "_RJtypeVI" 1),
      ("_RJtypeV", .obj .function "dtw.stepPattern" "_RJtypeV" 1),
      ("_RJtypeIV", .obj .function "dtw.stepPattern" "_RJtypeIV" 1),
      ("_RJtypeIII", .obj .function "dtw.stepPattern" "_RJtypeIII" 1),
      ("_RJtypeII", .obj .function "dtw.stepPattern" "_RJtypeII" 1),
      ("_RJtypeI", .obj .function "dtw.stepPattern" "_RJtypeI" 1),
      ("rabinerJuangStepPattern", .obj .function "dtw.stepPattern" "rabinerJuangStepPattern" 1),
      ("_P", .obj .cls "dtw.stepPattern" "_P" 1),
      ("_error", .obj .function "dtw.stepPattern" "_error" 1),
      ("_c", .obj .function "dtw.stepPattern" "_c" 1),
      ("StepPattern", .obj .cls "dtw.stepPattern" "StepPattern" 1),
      ("numpy", .external "numpy")]),
    ("dtw._backtrack", [("_backtrack", .obj .function "dtw._backtrack" "_backtrack" 1),
      ("_INT_MIN", .obj .value "dtw._backtrack" "_INT_MIN" 1),
      ("numpy", .external "numpy")]),
    ("dtw._globalCostMatrix", [("_test_computeCM2", .obj .function "dtw._globalCostMatrix" "_test_computeCM2" 1),
      ("_globalCostMatrix", .obj .function "dtw._globalCostMatrix" "_globalCostMatrix" 1),
      ("_computeCM_wrapper", .obj .function "dtw._dtw_utils" "_computeCM_wrapper" 1),
      ("noWindow", .obj .function "dtw.window" "noWindow" 1),
      ("numpy", .external "numpy")]),
    ("dtw.window", [("slantedBandWindow", .obj .function "dtw.window" "slantedBandWindow" 1),
      ("itakuraWindow", .obj .function "dtw.window" "itakuraWindow" 1),
      ("sakoeChibaWindow", .obj .function "dtw.window" "sakoeChibaWindow" 1),
      ("noWindow", .obj .function "dtw.window" "noWindow" 1)]),
    ("dtw._dtw_utils", [("_test_computeCM", .obj .function "dtw._dtw_utils" "_test_computeCM" 1),
      ("_computeCM_wrapper", .obj .function "dtw._dtw_utils" "_computeCM_wrapper" 1),
      ("__all__", .obj .value "dtw._dtw_utils" "__all__" 1),
      ("np", .external "numpy"),
      ("warnings", .external "warnings")]),
    ("dtw.dtwPlot", [("dtwPlotDensity", .obj .function "dtw.dtwPlot" "dtwPlotDensity" 1),
      ("dtwPlotThreeWay", .obj .function "dtw.dtwPlot" "dtwPlotThreeWay" 1),
      ("dtwPlotTwoWay", .obj .function "dtw.dtwPlot" "dtwPlotTwoWay" 1),
      ("dtwPlotAlignment", .obj .function "dtw.dtwPlot" "dtwPlotAlignment" 1),
      ("dtwPlot", .obj .function "dtw.dtwPlot" "dtwPlot" 1),
      ("numpy", .external "numpy")]),
    ("dtw.countPaths", [("countPaths", .obj .function "dtw.countPaths" "countPaths" 1),
      ("numpy", .external "numpy")]),
    ("dtw.mvm", [("mvmStepPattern", .obj .function "dtw.mvm" "mvmStepPattern" 1),
      ("numpy", .external "numpy"),
      ("StepPattern", .obj .cls "dtw.stepPattern" "StepPattern" 1)]),
    ("dtw.warp", [("warp", .obj .function "dtw.warp" "warp" 1),
      ("_interp", .obj .function "dtw.warp" "_interp" 1),
      ("_solveTies", .obj .function "dtw.warp" "_solveTies" 1),
      ("scipy", .external "scipy"),
      ("numpy", .external "numpy")]),
    ("dtw.warpArea", [("warpArea", .obj .function "dtw.warpArea" "warpArea" 1),
      ("scipy", .external "scipy"),
      ("numpy", .external "numpy")]),
    ("dtw.dtw_test_data", [("sin_cos", .obj .function "dtw.dtw_test_data" "sin_cos" 1),
      ("aami", .obj .function "dtw.dtw_test_data" "aami" 1),
      ("get_data", .external "pkgutil.get_data"),
      ("numpy", .external "numpy")]),
    ("dtw.__main__", [("main", .obj .function "dtw.__main__" "main" 1),
      ("main2", .obj .function "dtw.__main__" "main2" 1),
      ("argparse", .external "argparse"),
      ("dtw", .module "dtw"),
      ("numpy", .external "numpy"),
      ("sys", .external "sys")])]
  runs := ["dtw.__main__", "dtw.dtw_test_data", "dtw.warpArea", "dtw.warp", "dtw.mvm", "dtw.countPaths", "dtw.dtwPlot", "dtw._dtw_utils", "dtw.window", "dtw._globalCostMatrix", "dtw._backtrack", "dtw.stepPattern", "dtw.dtw", "dtw"]

end DTW.Imports

#!/bin/sh
# Generates lean/Verif/ImportStates.lean: the states of the package after `import dtw` and after `import dtw.__main__`, as literals.
# (That they are the states the model computes is checked by the kernel: `load_empty`, `load_main` in Props/Imports.lean.)
cd "$(dirname "$0")/../lean"
t=$(mktemp -d)/t.lean
cat > $t <<'L'
import Verif.Imports
open DTW.Imports
def val : Val → String
  | .module m => s!".module \"{m}\""
  | .obj k h n r => s!".obj {match k with | .function => ".function" | .cls => ".cls" | .pattern => ".pattern" | .value => ".value"} \"{h}\" \"{n}\" {r}"
  | .external e => s!".external \"{e}\""
def nsText (ns : NS) : String := "[" ++ ",\n      ".intercalate (ns.map fun q => s!"(\"{q.1}\", {val q.2})") ++ "]"
def pkgText (p : Pkg) : String :=
  "  mods := [\n    " ++ ",\n    ".intercalate (p.mods.map fun q => s!"(\"{q.1}\", {nsText q.2})") ++ "]\n  runs := [" ++
    ", ".intercalate (p.runs.map fun r => s!"\"{r}\"") ++ "]\n"
def S0' := (ensure Pkg.empty []).1
def S1' := (ensure S0' ["__main__"]).1
#eval IO.print ("import Verif.Imports\n\n/-!\n# The package when it is loaded\n\nGenerated by tools/gen_import_states.sh; checked in Props/Imports.lean.\n-/\n\nnamespace DTW.Imports\n\n/-- After `import dtw` in a fresh interpreter. -/\ndef S0 : Pkg where\n" ++ pkgText S0' ++ "\n/-- … followed by `import dtw.__main__`. -/\ndef S1 : Pkg where\n" ++ pkgText S1' ++ "\nend DTW.Imports\n")
L
lake env lean $t > Verif/ImportStates.lean

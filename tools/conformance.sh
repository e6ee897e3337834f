#!/bin/sh
# The repository's tests with larger data (tests/test_cli.py, tests/test_issues.py), run on the compiled model (interpreter).
# Not part of the proofs: evidence that the model computes what the program computes.  Takes some minutes.
# usage: tools/conformance.sh     (after `lake build` in lean/)
root=$(cd "$(dirname "$0")/.." && pwd)
tmp=$(mktemp -d)
python3 - "$tmp" <<'P'
import sys, math
from fractions import Fraction
def fr(v):
    f = Fraction(v)
    return f"F64.fin ({f.numerator}/{f.denominator})"
def linspace(a, b, n):  # numpy: arange(n) * step + a, end point fixed
    step = (b - a) / (n - 1)
    return [i * step + a for i in range(n - 1)] + [b]
q = [math.sin(t) for t in linspace(0, 6.28, 100)]
r = [math.cos(t) + 0.5 for t in linspace(0, 6.28, 70)]
open(sys.argv[1] + "/t.lean", "w").write(f"""
import Verif.Format
import Verif.TextFile
import Verif.Cdist
open DTW
def q : List F64 := [{", ".join(map(fr, q))}]
def r : List F64 := [{", ".join(map(fr, r))}]
def issue5 : String :=
  match rabinerJuang 4 "c" false with
  | .error _ => "no pattern"
  | .ok p =>
    match dtw (binary64 true) {{ x := .d1 q, y := some (.d1 r), dist := euclidean (binary64 true), stepPattern := .obj p }} with
    | .error e => "failed"
    | .ok a => s!"distance {{String.ofList (fmtG 6 a.distance)}} index2 {{(a.mapping.map (·.index2)).getD []}}"
def cli : IO Unit := do
  let a ← IO.FS.readFile "/repo/tests/query.csv"
  let b ← IO.FS.readFile "/repo/tests/reference.csv"
  for f in [true, false] do
    match mainText (binary64 f) pyText (euclidean (binary64 f))
        (fun n => if n = "query.csv" then .ok a.toList else if n = "reference.csv" then .ok b.toList else .error .attributeError)
        ["query.csv", "reference.csv", "--step_pattern", "symmetric2"] with
    | .printed s => IO.println s
    | .code n => IO.println s!"exit code {{n}}"
    | .raised _ => IO.println "raised"
#eval cli
#eval IO.println issue5
""")
P
cd "$root/lean" && lake env lean "$tmp/t.lean"

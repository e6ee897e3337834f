import Verif.Dtw
import Verif.Argparse

/-!
# The console script (dtw/__main__.py)
-/

namespace DTW
open F64

/-- `numpy.genfromtxt(file)` on a file whose lines are the rows of `t`, each already split into numbers (text parsing:
`TextFile.lean`): rows of different lengths are a ValueError; the array is then squeezed, so a
file with one column *or one line* is one-dimensional and a single number is zero-dimensional; an empty file is an empty
one-dimensional array (with a warning). -/
def genfromtxt (t : List (List F64)) : Except Err Nd :=
  match t with
  | [] => .ok (.d1 [])
  | r :: rs =>
    if rs.all fun q => decide (q.length = r.length) then
      if r.length = 1 then
        match rs with
        | [] => .ok (.d0 (r.headD nan))
        | _ => .ok (.d1 (r :: rs).flatten)
      else if rs = [] then .ok (.d1 r)
      else .ok (.d2 ⟨(r :: rs).length, r.length, (r :: rs).flatten⟩)
    else .error (.valueError "Some errors were detected !")

/-- The parts of the standard library and of numpy that make text: Python's `:.4g`, and `str` of the 2 × k integer array
`numpy.vstack([index1, index2])`. -/
structure Text where
  fmt4g : F64 → String
  showPath : List Int → List Int → String

/-- __main__.py:11-28 `main2(query, reference, step_pattern)`; `euclid` is cdist's default metric.  `hasattr(al,
"normalizedDistance")` always holds (dtw.py:459-462); without `index1` line 18 is an AttributeError. -/
def main2 (A : Arith) (T : Text) (euclid : List F64 → List F64 → F64) (query reference : List (List F64))
    (stepPattern : String) : Except Err String := do
  let q ← genfromtxt query
  let r ← genfromtxt reference
  let al ← dtw A { x := q, y := some r, dist := euclid, stepPattern := .name stepPattern }
  match al.mapping with
  | none => .error .attributeError
  | some mp =>
    let wp := T.showPath mp.index1 mp.index2
    .ok (("Normalized distance: " ++ T.fmt4g al.normalizedDistance ++ "\n\n") ++
      ("Distance: " ++ T.fmt4g al.distance ++ "\n\n") ++ ("Warping path: " ++ wp ++ "\n\n"))

/-- How the script ends: it prints and exits normally, exits with a code (usage, help, version), or dies with an
exception. -/
inductive Exit where
  | printed (s : String)
  | code (n : Nat)
  | raised (e : Err)
  deriving DecidableEq

/-- dtw/__init__.py:12 and __main__.py:36-37: what `--version` prints. -/
def versionText : String := "DTW package version 1.7.4\n"

/-- __main__.py:30-50 `main()`, with the arguments after the program name and the files as a function of their name.  The
reference is opened after the query has been read (and rejected, if it is ragged). -/
def main (A : Arith) (T : Text) (euclid : List F64 → List F64 → F64) (files : String → Except Err (List (List F64)))
    (argv : List String) : Exit :=
  if argv = [] then .code 1
  else
    match parseArgs argv with
    | .usage => .code 2
    | .help => .code 0
    | .version => .printed versionText
    | .run o =>
      match (do
        let q ← files o.query
        let _ ← genfromtxt q
        let r ← files o.reference
        main2 A T euclid q r o.stepPattern) with
      | .ok s => .printed (s ++ "\n")
      | .error e => .raised e

end DTW

import Verif.Cdist
import Verif.CountPaths
import Verif.Warp
import Verif.Props.Metric

/-!
# The repository's own tests, run on the model

Conformance of the model, not a property: the unit tests and doctests of /repo that state concrete results, evaluated by the
kernel on the model in IEEE doubles, with and without fused multiply-add.  (The tests with larger data - tests/test_cli.py and
tests/test_issues.py - are run on the compiled model by tools/conformance.sh.)
-/

namespace DTW.RepoTests
open F64

/-- A decimal literal. -/
def lit (q : ℚ) : F64 := rnd64 q

/-- `dtw(m, keep_internals=True, step_pattern=p)`. -/
def onMatrix (m : Mat F64) (p : String) : Args :=
  { x := .d2 m
    stepPattern := .name p
    keepInternals := true }

/-- `dtw(x, y, step_pattern=p, dist_method=M, keep_internals=True)`. -/
def onSeries (M : List F64 → List F64 → F64) (x y : Nd) (p : String) : Args :=
  callWith M
    { x := .dn
      stepPattern := .name p
      keepInternals := true } x y

def index1 (r : Except Err Result) : Option (List Int) :=
  match r with
  | .ok r => r.mapping.map (·.index1)
  | .error _ => none

def index2 (r : Except Err Result) : Option (List Int) :=
  match r with
  | .ok r => r.mapping.map (·.index2)
  | .error _ => none

def index1s (r : Except Err Result) : Option (List Int) :=
  match r with
  | .ok r => r.mapping.map (·.index1s)
  | .error _ => none

def index2s (r : Except Err Result) : Option (List Int) :=
  match r with
  | .ok r => r.mapping.map (·.index2s)
  | .error _ => none

def dist (r : Except Err Result) : Option F64 :=
  match r with
  | .ok r => some r.distance
  | .error _ => none

def ndist (r : Except Err Result) : Option F64 :=
  match r with
  | .ok r => some r.normalizedDistance
  | .error _ => none

def costs (r : Except Err Result) : Option (List F64) :=
  match r with
  | .ok r => r.costMatrix.map (·.data)
  | .error _ => none

/-- R's one-based indices, as in the tests' `i("...")`. -/
def one (l : List Int) : Option (List Int) := some (l.map (· - 1))

/-- tests/test_cran.py:13-16 -/
def ldist : Mat F64 := Mat.ofFn 6 6 fun i j => if i = 1 ∧ j = 4 then lit (1 / 100) else if i = 1 ∨ j = 4 then fin 0 else fin 1

/-- tests/test_cran.py test_ldist_symmetric2 -/
example (f : Bool) : dist (dtw (binary64 f) (onMatrix ldist "symmetric2")) = some (fin 2) ∧
    index1 (dtw (binary64 f) (onMatrix ldist "symmetric2")) = one [1, 2, 2, 2, 3, 4, 5, 6, 6] ∧
    index2 (dtw (binary64 f) (onMatrix ldist "symmetric2")) = one [1, 2, 3, 4, 5, 5, 5, 5, 6] ∧
    costs (dtw (binary64 f) (onMatrix ldist "symmetric2")) = some
      [fin 1, fin 2, fin 3, fin 4, fin 4, fin 5,
       fin 1, fin 1, fin 1, fin 1, lit (101 / 100), lit (101 / 100),
       fin 2, fin 2, fin 2, fin 2, fin 1, fin 2,
       fin 3, fin 3, fin 3, fin 3, fin 1, fin 2,
       fin 4, fin 4, fin 4, fin 4, fin 1, fin 2,
       fin 5, fin 5, fin 5, fin 5, fin 1, fin 2] := by
  cases f <;> decide +kernel

/-- tests/test_cran.py test_ldist_asymmetric -/
example (f : Bool) : dist (dtw (binary64 f) (onMatrix ldist "asymmetric")) = some (fin 2) ∧
    index1 (dtw (binary64 f) (onMatrix ldist "asymmetric")) = some [0, 1, 2, 3, 4, 5] ∧
    index2 (dtw (binary64 f) (onMatrix ldist "asymmetric")) = one [1, 3, 5, 5, 5, 6] := by
  cases f <;> decide +kernel

/-- tests/test_cran.py test_ldist_asymmetricP0 -/
example (f : Bool) : dist (dtw (binary64 f) (onMatrix ldist "asymmetricP0")) = some (fin 1) ∧
    index1 (dtw (binary64 f) (onMatrix ldist "asymmetricP0")) = one [1, 2, 2, 2, 2, 3, 4, 5, 6, 6] ∧
    index2 (dtw (binary64 f) (onMatrix ldist "asymmetricP0")) = one [1, 1, 2, 3, 4, 5, 5, 5, 5, 6] := by
  cases f <;> decide +kernel

/-- tests/test_cran.py test_ldist_asymmetricP1 -/
example (f : Bool) : dist (dtw (binary64 f) (onMatrix ldist "asymmetricP1")) = some (fin 3) ∧
    index1 (dtw (binary64 f) (onMatrix ldist "asymmetricP1")) = one [1, 2, 3, 3, 4, 5, 6] ∧
    index1s (dtw (binary64 f) (onMatrix ldist "asymmetricP1")) = one [1, 2, 3, 5, 6] ∧
    index2 (dtw (binary64 f) (onMatrix ldist "asymmetricP1")) = one [1, 2, 3, 4, 5, 5, 6] ∧
    index2s (dtw (binary64 f) (onMatrix ldist "asymmetricP1")) = one [1, 2, 4, 5, 6] := by
  cases f <;> decide +kernel

/-- tests/test_cran.py test_open_begin_end: the samples are `fl(2 + 0.01)`, `fl(3 + 0.01)`; seven significant digits. -/
def obe (f : Bool) : Except Err Result :=
  dtw (binary64 f)
    { onSeries (euclidean (binary64 f)) (.d1 [(binary64 f).add (fin 2) (lit (1 / 100)), (binary64 f).add (fin 3) (lit (1 / 100))])
        (.d1 [fin 1, fin 2, fin 3, fin 4]) "asymmetric" with
      openBegin := true
      openEnd := true }

example (f : Bool) : index2 (obe f) = one [2, 3] ∧
    ((dist (obe f)).any fun d => match d with
      | fin d => decide (|d - 2 / 100| < 1 / 10 ^ 9)
      | _ => false) = true := by
  cases f <;> decide +kernel

/-- tests/test_cran.py test_cdist -/
def cdQuery : Mat F64 := Mat.ofFn 10 2 fun i j => if j = 0 then fin (i + 1) else fin 1
def cdRef : Mat F64 := Mat.ofFn 5 2 fun i j => if j = 0 then fin (i + 11) else fin 2
def cdMatrix (f : Bool) : Mat F64 := Mat.ofFn 10 5 fun i j => cityblock (binary64 f) (cdQuery.row i) (cdRef.row j)

example (f : Bool) : dist (dtw (binary64 f) (onSeries (cityblock (binary64 f)) (.d2 cdQuery) (.d2 cdRef) "symmetric2")) =
      dist (dtw (binary64 f) (onMatrix (cdMatrix f) "symmetric2")) ∧
    (dist (dtw (binary64 f) (onMatrix (cdMatrix f) "symmetric2"))).isSome = true := by
  cases f <;> decide +kernel

/-- tests/test_countPaths.py -/
def counted (f : Bool) (a : Args) : Except Err Int := dtw (binary64 f) a >>= countPaths (binary64 f)

example (f : Bool) : counted f (onMatrix ldist "symmetric2") = .ok 1683 ∧ counted f (onMatrix ldist "asymmetric") = .ok 51 := by
  cases f <;> decide +kernel

/-- dtw/countPaths.py:57-61, doctest -/
example (f : Bool) : counted f (onSeries (euclidean (binary64 f)) (.d1 ((List.range 7).map fun (k : Nat) => fin (k + 3)))
      (.d1 ((List.range 8).map fun (k : Nat) => fin (k + 1))) "asymmetric") = .ok 126 := by
  cases f <;> decide +kernel

/-- tests/test_dtw_s.py test_matrix -/
example (f : Bool) : costs (dtw (binary64 f) (onMatrix (Mat.ofFn 4 4 fun i j => if i = j then fin 11 else fin 10) "symmetric2")) =
    some [fin 11, fin 21, fin 31, fin 41, fin 21, fin 32, fin 41, fin 51, fin 31, fin 41, fin 52, fin 61, fin 41, fin 51, fin 61, fin 72] := by
  cases f <;> decide +kernel

def small (f : Bool) : Except Err Result :=
  dtw (binary64 f) (onSeries (euclidean (binary64 f)) (.d1 [fin 1, fin 2, fin 3]) (.d1 [fin 2, fin 3, fin 4, fin 5, fin 6]) "symmetric2")

/-- tests/test_dtw_s.py test_rectangular, test_backtrack -/
example (f : Bool) : costs (small f) = some [fin 1, fin 3, fin 6, fin 10, fin 15, fin 1, fin 2, fin 4, fin 7, fin 11, fin 2, fin 1, fin 2, fin 4, fin 7] ∧
    ndist (small f) = some (fin (875 / 1000)) ∧
    index1 (small f) = some [0, 1, 2, 2, 2, 2] ∧ index1s (small f) = some [0, 1, 2, 2, 2, 2] ∧
    index2 (small f) = some [0, 0, 1, 2, 3, 4] ∧ index2s (small f) = some [0, 0, 1, 2, 3, 4] := by
  cases f <;> decide +kernel

/-- tests/test_dtw_s.py test_vectors -/
example (f : Bool) : dist (dtw (binary64 f)
    (onSeries (euclidean (binary64 f)) (.d1 [fin 1, fin 2, fin 3]) (.d1 [fin 2, fin 3, fin 4]) "symmetric2")) = some (fin 2) := by
  cases f <;> decide +kernel

/-- tests/test_dtw_s.py test_asymmetric -/
def lmAsym : Mat F64 := ⟨6, 6, [fin 1, fin 1, fin 2, fin 2, fin 3, fin 3, fin 1, fin 1, fin 1, fin 2, fin 2, fin 2, fin 3, fin 1, fin 2, fin 2, fin 3, fin 3, fin 3, fin 1, fin 2, fin 1, fin 1, fin 2, fin 3, fin 2, fin 1, fin 2, fin 1, fin 2, fin 3, fin 3, fin 3, fin 2, fin 1, fin 2]⟩

example (f : Bool) : costs (dtw (binary64 f) (onMatrix lmAsym "asymmetric")) = some [fin 1, nan, nan, nan, nan, nan, fin 2, fin 2, fin 2, nan, nan, nan, fin 5, fin 3, fin 4, fin 4, fin 5, nan, fin 8, fin 4, fin 5, fin 4, fin 5, fin 6, fin 11, fin 6, fin 5, fin 6, fin 5, fin 6, fin 14, fin 9, fin 8, fin 7, fin 6, fin 7] := by
  cases f <;> decide +kernel

/-- tests/test_dtw_s.py test_impossible -/
example (f : Bool) : (match dtw (binary64 f) (onSeries (euclidean (binary64 f)) (.d1 (List.replicate 4 (fin 1)))
      (.d1 (List.replicate 20 (fin 1))) "asymmetric") with
    | .error (.valueError _) => true
    | _ => false) = true := by
  cases f <;> decide +kernel

/-- dtw/mvm.py:72-95, doctest -/
def costmx : Mat F64 := ⟨5, 7, [fin 0, fin 1, fin 64, fin 4, fin 4, fin 16, fin 64, fin 1, fin 0, fin 49, fin 1, fin 1, fin 9, fin 49, fin 49, fin 36, fin 1, fin 25, fin 25, fin 9, fin 1, fin 25, fin 16, fin 9, fin 9, fin 9, fin 1, fin 9, fin 49, fin 36, fin 1, fin 25, fin 25, fin 9, fin 1]⟩

example (f : Bool) : index2 (dtw (binary64 f)
      { x := .d2 costmx
        stepPattern := .obj (mvmStepPattern 10) }) = one [1, 2, 3, 6, 7] := by
  cases f <;> decide +kernel

def areaCall (f : Bool) : Except Err Result :=
  dtw (binary64 f) (onSeries (euclidean (binary64 f)) (.d1 ((List.range 4).map fun (k : Nat) => fin (k + 1)))
      (.d1 ((List.range 8).map fun (k : Nat) => fin (k + 1))) "symmetric2")

/-- dtw/warpArea.py:62-80: the docstring reports 8.0, with the older scipy's interpolation; with the current one it is 4
(and 6 is the value the comment there expects). -/
example (f : Bool) : (areaCall f >>= warpArea (binary64 f) .scipyLinear) = .ok (fin 8) ∧
    (areaCall f >>= warpArea (binary64 f) .numpy) = .ok (fin 4) := by
  cases f <;> decide +kernel

/-- dtw_core.c:340-356 `test_argmin`. -/
example : argmin [fin 10, fin (-2), nan, fin 2, nan] = 1 ∧ argmin [fin 10, fin (-2), fin (-3), fin 2, fin (-4)] = 4 ∧
    argmin [fin 10, pinf, fin (-3), fin 2, fin (-4)] = 4 ∧ argmin [nan, nan, nan, nan, nan] = -1 := by
  decide +kernel

end DTW.RepoTests

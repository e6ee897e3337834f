import Verif.CountPaths

/-!
# User-supplied window functions as numpy sees them

`dtw` calls a window function once, on two index arrays, and casts what it returns to a 32-bit integer array
(_globalCostMatrix.py:18-23); `countPaths` calls the same function on pairs of Python integers and asks for the truth
value (countPaths.py:86-89).  Window.lean models both by one pointwise function; here the two behaviours are separate.
-/

namespace DTW
open F64

/-- One element of what a window function returns. -/
inductive WinVal where
  | bool (b : Bool)
  /-- an element of an integer array (or a Python integer) -/
  | int (z : Int)
  /-- an element of a float array (or a Python float) -/
  | float (x : F64)
  deriving DecidableEq, Repr

/-- Truth value of a Python object, countPaths.py:86 `if not wf(...)`. NaN is true. -/
def WinVal.truthy : WinVal → Bool
  | .bool b => b
  | .int z => decide (z ≠ 0)
  | .float x => decide (x ≠ fin 0)

/-- `astype(numpy.int32)`, _globalCostMatrix.py:23.  Booleans become 0/1, integers wrap around modulo 2^32, floats are
truncated; NaN, infinities and floats out of range become INT_MIN.  SIMPLIFICATION: the last is what x86-64 does (C leaves
it undefined); the theorems below only use that the result is not 0. -/
def WinVal.toI32 : WinVal → Int
  | .bool b => if b then 1 else 0
  | .int z => (z + 2147483648) % 4294967296 - 2147483648
  | .float (.fin q) => if -2147483649 < q ∧ q < 2147483648 then trunc q else intMin
  | .float _ => intMin

/-- What a call on index arrays returns. -/
inductive WinRet where
  /-- an object without method `astype`: a Python bool, int, float, list, None -/
  | pyObject
  /-- a numpy scalar, or an array whose number of dimensions is not two -/
  | otherDim
  /-- a two-dimensional array; `cOrder` says that its copy by `astype` (order 'K') is C-contiguous -/
  | mat (v : Mat WinVal) (cOrder : Bool)

/-- A window function: its behaviour on two integers and on the two index arrays of an n × m grid. -/
structure PyWindow where
  scalar : WinArgs → Int → Int → Int → Int → Except Err WinVal
  array : WinArgs → Nat → Nat → Except Err WinRet

namespace PyWindow

/-- The function object that the result records and countPaths calls: truth value of the scalar behaviour
(countPaths.py:86-89). -/
def fn (w : PyWindow) : WinFn :=
  .user fun args iw jw n m =>
    match w.scalar args iw jw n m with
    | .ok v => .ok v.truthy
    | .error e => .error e

/-- _dtw_utils.pyx:57-80 with the window array as returned: the array must be two-dimensional and C-contiguous
(ValueError).  **Its** shape, not that of `lm`, is passed to the kernel; nothing compares the two. -/
def globalCostMatrix (A : Arith) (lm : Mat F64) (lay : Layout) (p : StepPattern) (w : PyWindow)
    (seed : Option (Mat F64)) (args : WinArgs) : Except Err (Mat F64 × Mat Int) := do
  match ← w.array args lm.rows lm.cols with
  | .pyObject => .error .attributeError
  | .otherDim => do
    let _ ← initialCM lm seed
    .error (.valueError "Buffer has wrong number of dimensions")
  | .mat v cOrder => do
    let cm ← initialCM lm seed
    if cOrder = false then .error (.valueError "buffer mismatch")
    else computeCMWrapper A ⟨v.rows, v.cols, v.data.map WinVal.toI32⟩ lm lay p.getNRows p.getP cm

/-- dtw.py:408-424 with a user-supplied window function. -/
def runGCM (A : Arith) (a : Args) (lm : Mat F64) (lay : Layout) (w : PyWindow) (p : StepPattern) :
    Except Err (Mat F64 × Mat F64 × Mat Int) := do
  if a.openBegin then
    if p.hint ≠ "N" then .error (.valueError "Open-begin requires step patterns with 'N' normalization")
    else
      let lm' := prependZeros lm
      let (cm, sm) ← globalCostMatrix A lm' ⟨true, if a.y.isSome then true else a.stackContig⟩ p w
        (some (precm lm)) a.windowArgs
      .ok (lm', cm, sm)
  else
    let (cm, sm) ← globalCostMatrix A lm lay p w none a.windowArgs
    .ok (lm, cm, sm)

/-- dtw.py:130-486 `dtw(..., window_type=w)` (`a.windowType` is not used). -/
def dtw (A : Arith) (a : Args) (w : PyWindow) : Except Err Result := do
  let (lm, lay, qr) ← localCost a
  let p ← canonPattern a.stepPattern
  let norm := p.hint
  let n := lm.rows
  let m := lm.cols
  let (lm', cm, sm) ← runGCM A a lm lay w p
  let lastcol := normalise A norm n (cm.row (cm.rows - 1))
  let (jmin, distance) ← pickEnd a norm m cm lastcol
  let normalizedDistance ← pickNorm norm lastcol jmin
  let mapping ← pickMapping a p sm jmin
  let lm'' := if a.openBegin then lm'.dropRow else lm'
  let cm' := if a.openBegin then cm.dropRow else cm
  let sm' := if a.openBegin then sm.dropRow else sm
  .ok
    { N := n, M := m, openEnd := a.openEnd, openBegin := a.openBegin
      windowFunction := w.fn, windowArgs := a.windowArgs, stepPattern := p
      jmin := jmin, distance := distance, normalizedDistance := normalizedDistance
      mapping := mapping
      costMatrix := if a.keepInternals then some cm' else none
      directionMatrix := if a.keepInternals then some sm' else none
      localCostMatrix := if a.keepInternals then some lm'' else none
      queryReference := if a.keepInternals then qr else none }

end PyWindow

end DTW

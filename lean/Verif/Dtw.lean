import Verif.Kernel
import Verif.Window
import Verif.Tables

/-!
# The main entry point: dtw.py, _globalCostMatrix.py, _backtrack.py
-/

namespace DTW
open F64

/-! ### _globalCostMatrix.py -/

/-- The window matrix, _globalCostMatrix.py:15-23: all ones for `noWindow` (the function is not called,
so `win_args` is ignored), otherwise the window function evaluated at every `(i,j)` and cast to 0/1.  The
lambda of an unknown name takes no argument, so the call fails whatever the size of the matrix. -/
def windowMatrix (n m : Nat) (wf : WinFn) (args : WinArgs) : Except Err (Mat Int) :=
  match wf with
  | .noWindow => .ok (Mat.ofFn n m fun _ _ => 1)
  | .undefinedLambda => .error .typeError
  | _ => do
    let d ← (List.range (n * m)).mapM fun (k : Nat) => do
      let b ← wf.call args n m (k / m : Nat) (k % m : Nat)
      .ok (if b then (1 : Int) else 0)
    .ok ⟨n, m, d⟩

/-- _globalCostMatrix.py:29-33: the initial cost matrix: the seed if given, otherwise NaN everywhere
except `cm[0,0] = lm[0,0]` (IndexError for an empty matrix). -/
def initialCM (lm : Mat F64) (seed : Option (Mat F64)) : Except Err (Mat F64) :=
  match seed with
  | some s => .ok s
  | none =>
    if lm.rows = 0 ∨ lm.cols = 0 then .error .indexError
    else do
      let v ← lm.pyGet 0 0
      .ok ⟨lm.rows, lm.cols, (List.replicate (lm.rows * lm.cols) nan).set 0 v⟩

/-- _globalCostMatrix.py:6-43 `_globalCostMatrix`. -/
def globalCostMatrix (A : Arith) (lm : Mat F64) (lay : Layout) (p : StepPattern) (wf : WinFn)
    (seed : Option (Mat F64)) (args : WinArgs) : Except Err (Mat F64 × Mat Int) := do
  let wm ← windowMatrix lm.rows lm.cols wf args
  let cm ← initialCM lm seed
  computeCMWrapper A wm lm lay p.getNRows p.getP cm

/-! ### _backtrack.py -/

/-- _backtrack.py:33-44: `stepsCache[q]`: the rows of rule `q` with a non-null delta, columns 1,2,
flipped. -/
def stepsCache (p : StepPattern) (q : Int) : List (Int × Int) :=
  (((p.mx.filter fun s => s.di ≠ 0 ∨ s.dj ≠ 0).filter fun s => s.pid = q).map
    fun s => (s.di, s.dj)).reverse

/-- Loop state of _backtrack.py:46-74. -/
structure BT where
  i : Int
  j : Int
  ii : List Int
  jj : List Int
  iis : List Int
  jjs : List Int
  ss : List Int
  deriving DecidableEq, Repr

/-- One iteration of the `while True` loop, _backtrack.py:53-74; `none` is `break`.
`stepsCache[s]` of an unknown `s` is a KeyError.  With an empty `steps` the variable `k` of line 70 is
unbound, or stale and out of range: an exception either way (modelled as `unboundLocal`). -/
def btStep (p : StepPattern) (npat : Int) (D : Mat Int) (s : BT) : Except Err (Option BT) := do
  if s.i = 0 ∧ s.j = 0 then .ok none
  else
    let d ← D.pyGet s.i s.j
    if d = intMin then .ok none
    else if ¬ (1 ≤ d ∧ d ≤ npat) then .error .keyError
    else
      let steps := stepsCache p d
      match steps.getLast? with
      | none => .error .unboundLocal
      | some l =>
        .ok (some
          { i := s.i - l.1
            j := s.j - l.2
            ii := steps.foldl (fun acc st => (s.i - st.1) :: acc) s.ii
            jj := steps.foldl (fun acc st => (s.j - st.2) :: acc) s.jj
            iis := (s.i - l.1) :: s.iis
            jjs := (s.j - l.2) :: s.jjs
            ss := d :: s.ss })

/-- The `while True` loop.  The walk is deterministic on the finitely many `(i,j)` that index the
direction matrix (numpy accepts `-n..n-1`, `-m..m-1`), so if it has not stopped after `4*n*m+1`
iterations it never does: with that fuel, `diverges` is genuine non-termination. -/
def btLoop (p : StepPattern) (npat : Int) (D : Mat Int) : Nat → BT → Except Err BT
  | 0, _ => .error .diverges
  | fuel + 1, s => do
    match ← btStep p npat D s with
    | none => .ok s
    | some s' => btLoop p npat D fuel s'

/-- The alignment part of a DTW object: index1, index2, index1s, index2s, stepsTaken. -/
structure Mapping where
  index1 : List Int
  index2 : List Int
  index1s : List Int
  index2s : List Int
  stepsTaken : List Int
  deriving DecidableEq, Repr

/-- _backtrack.py:26-82 `_backtrack`, from cell `(n-1, jmin)`. -/
def backtrack (p : StepPattern) (D : Mat Int) (jmin : Int) : Except Err Mapping := do
  let npat ← p.getNPatterns
  let i : Int := (D.rows : Int) - 1
  let s ← btLoop p npat D (4 * D.rows * D.cols + 2) ⟨i, jmin, [i], [jmin], [i], [jmin], []⟩
  .ok ⟨s.ii, s.jj, s.iis, s.jjs, s.ss⟩

/-! ### dtw.py -/

/-- An array-like argument by number of dimensions; `dn` stands for three or more. -/
inductive Nd where
  | d0 (x : F64)
  | d1 (xs : List F64)
  | d2 (m : Mat F64)
  | dn

/-- The `step_pattern` argument: an object with attribute `mx`, or a name. -/
inductive PatArg where
  | obj (p : StepPattern)
  | name (s : String)

/-- Arguments of dtw() (dtw.py:130-138).  `dist` is the local distance that
`scipy.spatial.distance.cdist` evaluates on two rows (an external function, arbitrary here).
`layout` describes the memory of the matrix argument (when `y` is None), `stackContig` whether numpy's
`vstack` of a zero row and that matrix is C-contiguous. -/
structure Args where
  x : Nd
  y : Option Nd := none
  dist : List F64 → List F64 → F64 := fun _ _ => nan
  layout : Layout := ⟨true, true⟩
  stackContig : Bool := true
  stepPattern : PatArg := .name "symmetric2"
  windowType : WinArg := .none
  windowArgs : WinArgs := []
  keepInternals : Bool := false
  distanceOnly : Bool := false
  openEnd : Bool := false
  openBegin : Bool := false

/-- dtw.py:505-510 `_canonicalizeStepPattern`: an object, or `getattr(module, s)`.  A string that names
no step pattern either is no attribute at all or names something without a `hint` (dtw.py:404); both are
AttributeErrors. -/
def canonPattern : PatArg → Except Err StepPattern
  | .obj p => .ok p
  | .name s =>
    match Pat.table.lookup s with
    | some p => .ok p
    | none => .error .attributeError

/-- dtw.py:395-398: `atleast_2d(x).T` for one-dimensional series; a 0-dimensional one is rejected by
`cdist` (ValueError), three or more dimensions at line 394. -/
def asColumns : Nd → Except Err (Mat F64)
  | .d0 _ => .error (.valueError "cdist: 2-dimensional array expected")
  | .d1 xs => .ok ⟨xs.length, 1, xs⟩
  | .d2 m => .ok m
  | .dn => .error (.valueError "Input arrays should be 1 or 2 dimensional")

/-- `scipy.spatial.distance.cdist(x, y, metric)`: entry `[i,j]` is the distance of row `i` of `x` and row
`j` of `y`; rows of different lengths are rejected (ValueError).  The result is C-contiguous float64. -/
def cdist (dist : List F64 → List F64 → F64) (x y : Mat F64) : Except Err (Mat F64) :=
  if x.cols ≠ y.cols then .error (.valueError "cdist: same number of columns expected")
  else .ok (Mat.ofFn x.rows y.rows fun i j => dist (x.row i) (y.row j))

/-- dtw.py:387-399: the local cost matrix, its layout and, for a two-series call, `(query, reference)`. -/
def localCost (a : Args) : Except Err (Mat F64 × Layout × Option (Mat F64 × Mat F64)) :=
  match a.y with
  | none =>
    match a.x with
    | .d2 m => .ok (m, a.layout, none)
    | _ => .error (.valueError "A 2D local distance matrix was expected")
  | some y => do
    let x' ← asColumns a.x
    let y' ← asColumns y
    let lm ← cdist a.dist x' y'
    .ok (lm, ⟨true, true⟩, some (x', y'))

/-- dtw.py:412 `vstack([zeros((1,m)), lm])`. -/
def prependZeros (lm : Mat F64) : Mat F64 :=
  ⟨lm.rows + 1, lm.cols, List.replicate lm.cols (fin 0) ++ lm.data⟩

/-- dtw.py:414-415 `precm`: NaN, with a first row of zeros. -/
def precm (lm : Mat F64) : Mat F64 :=
  ⟨lm.rows + 1, lm.cols, List.replicate lm.cols (fin 0) ++ List.replicate (lm.rows * lm.cols) nan⟩

/-- dtw.py:438-445: the normalised last row. -/
def normalise (A : Arith) (norm : String) (n : Nat) (lastrow : List F64) : List F64 :=
  if norm = "NA" then lastrow
  else if norm = "N+M" then lastrow.mapIdx fun j v => A.divQ v ((n : ℚ) + j + 1)
  else if norm = "N" then lastrow.map fun v => A.divQ v n
  else if norm = "M" then lastrow.mapIdx fun j v => A.divQ v (1 + (j : ℚ))
  else lastrow

/-- numpy `argmin` on a list without NaN: first position of the minimum, from position `i` with current
best `(ii, vv)`. -/
def firstMin : List F64 → Nat → Nat → F64 → Nat
  | [], _, ii, _ => ii
  | x :: xs, i, ii, vv => if F64.lt x vv then firstMin xs (i + 1) i x else firstMin xs (i + 1) ii vv

/-- `numpy.nanargmin` (dtw.py:452): ValueError on an all-NaN (or empty) list; otherwise NaNs are replaced
by +inf and the first minimum is taken. -/
def nanargmin (l : List F64) : Except Err Nat :=
  if l.all isNan then .error (.valueError "All-NaN slice encountered")
  else
    match l.map (fun v => if isNan v then pinf else v) with
    | [] => .error (.valueError "empty")
    | x :: xs => .ok (firstMin xs 1 0 x)

/-- The DTW result object (dtw.py:45-76, 425-486); an optional field is `none` when the attribute does
not exist. -/
structure Result where
  N : Nat
  M : Nat
  openEnd : Bool
  openBegin : Bool
  windowFunction : WinFn
  windowArgs : WinArgs
  stepPattern : StepPattern
  jmin : Int
  distance : F64
  normalizedDistance : F64
  mapping : Option Mapping
  costMatrix : Option (Mat F64)
  directionMatrix : Option (Mat Int)
  localCostMatrix : Option (Mat F64)
  queryReference : Option (Mat F64 × Mat F64)

/-- dtw.py:469-472: dropping the null row from a mapping (`[1:] - 1` and `[1:]`). -/
def Mapping.dropNull (mp : Mapping) : Mapping where
  index1 := mp.index1.tail.map (· - 1)
  index2 := mp.index2.tail
  index1s := mp.index1s.tail.map (· - 1)
  index2s := mp.index2s.tail
  stepsTaken := mp.stepsTaken

/-- dtw.py:408-424: the open-begin preparation and the call of `_globalCostMatrix`; returns also the
local cost matrix in use (with the null row, when open_begin). -/
def runGCM (A : Arith) (a : Args) (lm : Mat F64) (lay : Layout) (wf : WinFn) (p : StepPattern) :
    Except Err (Mat F64 × Mat F64 × Mat Int) := do
  if a.openBegin then
    if p.hint ≠ "N" then .error (.valueError "Open-begin requires step patterns with 'N' normalization")
    else
      let lm' := prependZeros lm
      let (cm, sm) ← globalCostMatrix A lm' ⟨true, if a.y.isSome then true else a.stackContig⟩ p wf
        (some (precm lm)) a.windowArgs
      .ok (lm', cm, sm)
  else
    let (cm, sm) ← globalCostMatrix A lm lay p wf none a.windowArgs
    .ok (lm, cm, sm)

/-- dtw.py:447-457: `jmin` and `distance`. -/
def pickEnd (a : Args) (norm : String) (m : Nat) (cm : Mat F64) (lastcol : List F64) :
    Except Err (Int × F64) := do
  let jmin : Int ←
    if a.openEnd then
      if norm = "NA" then .error (.valueError "Open-end alignments require normalizable step patterns")
      else do let k ← nanargmin lastcol; .ok (k : Int)
    else .ok ((m : Int) - 1)
  let distance ← cm.pyGet (-1) jmin
  if isNan distance then .error (.valueError "No warping path found compatible with the local constraints")
  else .ok (jmin, distance)

/-- dtw.py:459-462: `normalizedDistance = lastcol[jmin]`, or NaN when the hint is "NA". -/
def pickNorm (norm : String) (lastcol : List F64) (jmin : Int) : Except Err F64 :=
  if norm ≠ "NA" then
    match lastcol[jmin.toNat]? with
    | some v => .ok v
    | none => .error .indexError
  else .ok nan

/-- dtw.py:464-475: backtracking (unless distance_only) and removal of the null row (if open_begin).
With `distance_only` the object has no attribute `index1`, so line 469 raises AttributeError. -/
def pickMapping (a : Args) (p : StepPattern) (sm : Mat Int) (jmin : Int) :
    Except Err (Option Mapping) := do
  let mp ← if a.distanceOnly then .ok none else do let mp ← backtrack p sm jmin; .ok (some mp)
  if a.openBegin then
    match mp with
    | none => .error .attributeError
    | some mp => .ok (some mp.dropNull)
  else .ok mp

/-- dtw.py:130-486 `dtw`. -/
def dtw (A : Arith) (a : Args) : Except Err Result := do
  let (lm, lay, qr) ← localCost a
  let wf := canonWindow a.windowType
  let p ← canonPattern a.stepPattern
  let norm := p.hint
  let n := lm.rows
  let m := lm.cols
  let (lm', cm, sm) ← runGCM A a lm lay wf p
  let lastcol := normalise A norm n (cm.row (cm.rows - 1))
  let (jmin, distance) ← pickEnd a norm m cm lastcol
  let normalizedDistance ← pickNorm norm lastcol jmin
  let mapping ← pickMapping a p sm jmin
  let lm'' := if a.openBegin then lm'.dropRow else lm'
  let cm' := if a.openBegin then cm.dropRow else cm
  let sm' := if a.openBegin then sm.dropRow else sm
  .ok
    { N := n, M := m, openEnd := a.openEnd, openBegin := a.openBegin
      windowFunction := wf, windowArgs := a.windowArgs, stepPattern := p
      jmin := jmin, distance := distance, normalizedDistance := normalizedDistance
      mapping := mapping
      costMatrix := if a.keepInternals then some cm' else none
      directionMatrix := if a.keepInternals then some sm' else none
      localCostMatrix := if a.keepInternals then some lm'' else none
      queryReference := if a.keepInternals then qr else none }

end DTW

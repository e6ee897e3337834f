import Verif.Dtw

/-!
# numpy arrays as strided memory

The one-matrix call `dtw(x)` again, with `x` a numpy array given by its memory, offset, strides and dtype, and the C
kernel reading the raw memory of the array it is handed.
-/

namespace DTW
open F64

/-- Element types, as far as numpy's promotion with float64 and Cython's buffer check distinguish them. -/
inductive Dtype where
  | float64
  /-- bool, integers, float16, float32: promoted to float64 when stacked with float64 zeros.  SIMPLIFICATION: the
  conversion is exact (an int64 beyond 2^53 would be rounded). -/
  | narrow
  /-- longdouble: stays what it is when stacked with float64 zeros -/
  | wide
  deriving DecidableEq, Repr

/-- A two-dimensional numpy array: shape, memory block, position of element (0,0) and strides (both counted in
elements), element type. -/
structure NpArray where
  rows : Nat
  cols : Nat
  mem : List F64
  offset : Int
  rowStride : Int
  colStride : Int
  dtype : Dtype

namespace NpArray

/-- The address of element `(i,j)` in the memory block. -/
def addr (x : NpArray) (i j : Nat) : Int := x.offset + i * x.rowStride + j * x.colStride

/-- Element `x[i,j]`. -/
def entry (x : NpArray) (i j : Nat) : F64 := (x.mem[(x.addr i j).toNat]?).getD nan

/-- The matrix an array denotes, by indexing. -/
def logical (x : NpArray) : Mat F64 := Mat.ofFn x.rows x.cols x.entry

/-- Every element lies in the memory block (numpy guarantees it). -/
def Valid (x : NpArray) : Prop :=
  ∀ i < x.rows, ∀ j < x.cols, 0 ≤ x.addr i j ∧ (x.addr i j).toNat < x.mem.length

/-- numpy's flag C_CONTIGUOUS (with relaxed strides: the stride of a dimension of length 0 or 1 does not matter; an
empty array is contiguous). -/
def cContig (x : NpArray) : Bool :=
  decide (x.rows = 0 ∨ x.cols = 0) ||
    ((decide (x.cols ≤ 1) || decide (x.colStride = 1)) && (decide (x.rows ≤ 1) || decide (x.rowStride = x.cols)))

/-- numpy's flag F_CONTIGUOUS. -/
def fContig (x : NpArray) : Bool :=
  decide (x.rows = 0 ∨ x.cols = 0) ||
    ((decide (x.rows ≤ 1) || decide (x.rowStride = 1)) && (decide (x.cols ≤ 1) || decide (x.colStride = x.rows)))

/-- A new array with elements `f i j` in row-major memory. -/
def ofFnC (n m : Nat) (d : Dtype) (f : Nat → Nat → F64) : NpArray where
  rows := n
  cols := m
  mem := (List.range (n * m)).map fun k => f (k / m) (k % m)
  offset := 0
  rowStride := m
  colStride := 1
  dtype := d

/-- A new array with elements `f i j` in column-major memory. -/
def ofFnF (n m : Nat) (d : Dtype) (f : Nat → Nat → F64) : NpArray where
  rows := n
  cols := m
  mem := (List.range (n * m)).map fun k => f (k % n) (k / n)
  offset := 0
  rowStride := 1
  colStride := n
  dtype := d

/-- dtw.py:388 `numpy.array(x)`: a copy with `order='K'`: row-major if the source is C-contiguous, else column-major if
it is F-contiguous, else the axis with the larger stride (in absolute value) varies slowest. -/
def copyK (x : NpArray) : NpArray :=
  if x.cContig then ofFnC x.rows x.cols x.dtype x.entry
  else if x.fContig then ofFnF x.rows x.cols x.dtype x.entry
  else if |x.colStride| ≤ |x.rowStride| then ofFnC x.rows x.cols x.dtype x.entry
  else ofFnF x.rows x.cols x.dtype x.entry

/-- numpy promotion with float64. -/
def Dtype.promote : Dtype → Dtype
  | .wide => .wide
  | _ => .float64

/-- dtw.py:412 `numpy.vstack([numpy.zeros((1, m)), x])`: one more row, of zeros.  numpy.concatenate chooses the memory
order from the arrays that have more than one row and more than one column (ties, and no such array: row-major). -/
def vstackZeros (x : NpArray) : NpArray :=
  let f := fun (i j : Nat) => if i = 0 then fin 0 else x.entry (i - 1) j
  let d := Dtype.promote x.dtype
  if x.rows ≠ 1 ∧ x.cols ≠ 1 ∧ |x.rowStride| < |x.colStride| then ofFnF (x.rows + 1) x.cols d f
  else ofFnC (x.rows + 1) x.cols d f

/-- _dtw_utils.pyx:57-80 on an array: the typed memoryview `double [:,::1]` is obtained only for C-contiguous float64
(otherwise ValueError); the kernel gets the address of the first element and reads the raw memory from there. -/
def computeCMWrapper (A : Arith) (wm : Mat Int) (lm : NpArray) (nsteps : Nat) (dir : List ℚ) (cm : Mat F64) :
    Except Err (Mat F64 × Mat Int) := do
  if lm.dtype ≠ .float64 ∨ lm.cContig = false then .error (.valueError "buffer mismatch")
  else if wm.rows = 0 ∨ wm.cols = 0 ∨ dir = [] then .error .indexError
  else
    let sm0 : List Int := List.replicate (lm.rows * lm.cols) (-1)
    let (c, s) ← computeCM A wm.cols wm.rows wm.data (lm.mem.drop lm.offset.toNat) nsteps dir cm.data sm0
    .ok (⟨cm.rows, cm.cols, c⟩, ⟨lm.rows, lm.cols, s⟩)

/-- _globalCostMatrix.py:6-43 on an array.  (`wm` and `cm`, made by `full_like`, have the memory order of `lm`: when
that is not row-major the call is rejected for `lm` already.) -/
def globalCostMatrix (A : Arith) (lm : NpArray) (p : StepPattern) (wf : WinFn) (seed : Option (Mat F64))
    (args : WinArgs) : Except Err (Mat F64 × Mat Int) := do
  let wm ← windowMatrix lm.rows lm.cols wf args
  let cm ← initialCM lm.logical seed
  computeCMWrapper A wm lm p.getNRows p.getP cm

/-- dtw.py:408-424 on an array. -/
def runGCM (A : Arith) (a : Args) (lm : NpArray) (wf : WinFn) (p : StepPattern) :
    Except Err (Mat F64 × Mat F64 × Mat Int) := do
  if a.openBegin then
    if p.hint ≠ "N" then .error (.valueError "Open-begin requires step patterns with 'N' normalization")
    else
      let lm' := lm.vstackZeros
      let (cm, sm) ← globalCostMatrix A lm' p wf (some (precm lm.logical)) a.windowArgs
      .ok (lm'.logical, cm, sm)
  else
    let (cm, sm) ← globalCostMatrix A lm p wf none a.windowArgs
    .ok (lm.logical, cm, sm)

/-- dtw.py:130-486: `dtw(x, ...)` with `x` a two-dimensional array and `y` None; the other arguments are those of `a`
(whose `x`, `y`, `dist`, `layout`, `stackContig` are not used). -/
def dtw (A : Arith) (x : NpArray) (a : Args) : Except Err Result := do
  let lm := x.copyK
  let wf := canonWindow a.windowType
  let p ← canonPattern a.stepPattern
  let norm := p.hint
  let n := lm.rows
  let m := lm.cols
  let (lm', cm, sm) ← runGCM A a lm wf p
  let lastcol := normalise A norm n (cm.row (cm.rows - 1))
  let (jmin, distance) ← pickEnd a norm m cm lastcol
  let normalizedDistance ← pickNorm norm lastcol jmin
  let mapping ← pickMapping a p sm jmin
  let lm'' := if a.openBegin then lm'.dropRow else lm'
  let cm' := if a.openBegin then cm.dropRow else cm
  let sm' := if a.openBegin then sm.dropRow else sm
  .ok
    { N := n
      M := m
      openEnd := a.openEnd
      openBegin := a.openBegin
      windowFunction := wf
      windowArgs := a.windowArgs
      stepPattern := p
      jmin := jmin
      distance := distance
      normalizedDistance := normalizedDistance
      mapping := mapping
      costMatrix := if a.keepInternals then some cm' else none
      directionMatrix := if a.keepInternals then some sm' else none
      localCostMatrix := if a.keepInternals then some lm'' else none
      queryReference := none }

end NpArray

end DTW

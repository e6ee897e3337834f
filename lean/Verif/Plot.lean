import Verif.Warp

/-!
# dtwPlot.py: what is drawn

The drawing commands sent to matplotlib are data (`Drawing`); rendering, colours, labels and figure layout
are not modelled.
-/

namespace DTW
open F64

/-- A point of a plot. -/
abbrev Pt := F64 × F64

/-- An index as a coordinate. -/
def coord (i : Int) : F64 := fin (i : ℚ)

/-- What one plotting call draws: the warping curve, the two series (with the abscissae `0,1,...`; the
reference with its vertical displacement), the match guides, the image. -/
structure Drawing where
  curve : List (Int × Int) := []
  query : List (List F64) := []
  reference : List (List F64) := []
  guides : List (Pt × Pt) := []
  image : Option (Mat F64) := none

/-- `match_indices`: default, a number, or a vector of positions. -/
inductive MatchIndices where
  | default
  | num (k : Int)
  | list (l : List Int)

/-- Options of the plotting functions.  SIMPLIFICATION: the keyword arguments that are forwarded to
matplotlib are not modelled, and neither is their rejection. -/
structure PlotOpts where
  xts : Option Nd := none
  yts : Option Nd := none
  offset : ℚ := 0
  matchIndices : MatchIndices := .default
  normalize : Bool := false

/-- `numpy.linspace(0, stop, num).astype(int)` with `stop = len - 1`; a negative `num` is a ValueError.
`len = 0` does not occur for an alignment with a path. -/
def linspaceInt (A : Arith) (len : Nat) (num : Int) : Except Err (List Int) :=
  if num < 0 then .error (.valueError "Number of samples must be non-negative.")
  else .ok ((List.range num.toNat).map fun i => castInt (linspaceAt A len num.toNat i))

/-- numpy indexing of a one-dimensional array: negative indices count from the end. -/
def pyIdx {α} (l : List α) (i : Int) : Except Err α :=
  let i' := if i < 0 then i + l.length else i
  if 0 ≤ i' then
    match l[i'.toNat]? with
    | some v => .ok v
    | none => .error .indexError
  else .error .indexError

/-- dtwPlot.py:155-160 and 266-271: if one of the two series is not supplied, both are taken from the
alignment; ValueError if it does not hold them. -/
def plotSeries (d : Result) (o : PlotOpts) : Except Err (Nd × Nd) :=
  match o.xts, o.yts with
  | some x, some y => .ok (x, y)
  | _, _ =>
    match d.queryReference with
    | some (x, y) => .ok (.d2 x, .d2 y)
    | none => .error (.valueError "Original timeseries are required")

/-- dtwPlot.py:162 `xts.shape[1]`: IndexError for arrays with fewer than two dimensions.  SIMPLIFICATION:
arrays with three or more dimensions are treated as multivariate. -/
def univariate : Nd → Except Err (Mat F64)
  | .d0 _ => .error .indexError
  | .d1 _ => .error .indexError
  | .d2 m => if m.cols ≠ 1 then .error (.valueError "Only single-variate timeseries can be plotted in the two-way style")
    else .ok m
  | .dn => .error (.valueError "Only single-variate timeseries can be plotted in the two-way style")

/-- The rows of a matrix. -/
def Mat.toRows (m : Mat F64) : List (List F64) := (List.range m.rows).map m.row

/-- dtwPlot.py:79-87 `dtwPlotAlignment`. -/
def plotAlignment (d : Result) : Except Err Drawing :=
  match d.mapping with
  | none => .error .attributeError
  | some mp => .ok { curve := mp.index1.zip mp.index2 }

/-- dtwPlot.py:188-194 and 295-301: the positions of the guides; `dflt` is what the default stands for.
`len(d.index1)` is an AttributeError without a path. -/
def guidePositions (A : Arith) (d : Result) (dflt : Except Err (List Int)) (mi : MatchIndices) :
    Except Err (List Int) :=
  match mi with
  | .default => dflt
  | .num k =>
    match d.mapping with
    | none => .error .attributeError
    | some mp => linspaceInt A mp.index1.length k
  | .list l => .ok l

/-- `numpy.linspace` draws 50 points unless told otherwise (dtwPlot.py:189). -/
def defaultTwoWay (A : Arith) (d : Result) : Except Err (List Int) :=
  match d.mapping with
  | none => .error .attributeError
  | some mp => linspaceInt A mp.index1.length 50

/-- dtwPlot.py:197-199: one guide of the two-way plot. -/
def twoWayGuide (A : Arith) (d : Result) (x y : Mat F64) (offset : ℚ) (i : Int) : Except Err (Pt × Pt) := do
  match d.mapping with
  | none => .error .attributeError
  | some mp =>
    let i1 ← pyIdx mp.index1 i
    let v1 ← x.pyGet i1 0
    let i2 ← pyIdx mp.index2 i
    let v2 ← y.pyGet i2 0
    .ok ((coord i1, v1), (coord i2, A.add (fin offset) v2))

/-- dtwPlot.py:90-203 `dtwPlotTwoWay`.  The series are drawn as `xts` and `yts - (-offset)`. -/
def plotTwoWay (A : Arith) (d : Result) (o : PlotOpts) : Except Err Drawing := do
  let (xs, ys) ← plotSeries d o
  let x ← univariate xs
  let y ← univariate ys
  let idx ← guidePositions A d (defaultTwoWay A d) o.matchIndices
  let guides ← idx.mapM (twoWayGuide A d x y o.offset)
  .ok { query := x.toRows, reference := y.toRows.map (·.map fun v => A.add v (fin o.offset)), guides := guides }

/-- `axq.plot(nn1, xts)` with `nn = len(xts)`: the rows of an array.  `len` of a 0-dimensional array is a
TypeError; matplotlib rejects three dimensions with a ValueError. -/
def rowsOf : Nd → Except Err (List (List F64))
  | .d0 _ => .error .typeError
  | .d1 xs => .ok (xs.map fun v => [v])
  | .d2 m => .ok m.toRows
  | .dn => .error (.valueError "x and y can be no greater than 2D")

/-- dtwPlot.py:304-308: the two guides of the three-way plot for one position. -/
def threeWayGuides (mp : Mapping) (i : Int) : Except Err (List (Pt × Pt)) := do
  let i1 ← pyIdx mp.index1 i
  let i2 ← pyIdx mp.index2 i
  .ok [((coord i1, fin 0), (coord i1, coord i2)), ((fin 0, coord i2), (coord i1, coord i2))]

/-- dtwPlot.py:206-318 `dtwPlotThreeWay`. -/
def plotThreeWay (A : Arith) (d : Result) (o : PlotOpts) : Except Err Drawing := do
  let (xs, ys) ← plotSeries d o
  let x ← rowsOf xs
  let y ← rowsOf ys
  match d.mapping with
  | none => .error .attributeError
  | some mp =>
    let idx ← guidePositions A d (.ok []) o.matchIndices
    let guides ← idx.mapM (threeWayGuides mp)
    .ok { curve := mp.index1.zip mp.index2, query := x, reference := y, guides := guides.flatten }

/-- dtwPlot.py:378-389: the displayed matrix. -/
def densityMatrix (A : Arith) (d : Result) (normalize : Bool) : Except Err (Mat F64) :=
  match d.costMatrix with
  | none => .error (.valueError "dtwPlotDensity requires dtw internals (set keep.internals=True on dtw() call)")
  | some cm =>
    if normalize then
      if d.stepPattern.hint = "NA" then .error (.valueError "Step pattern has no normalization")
      else if d.stepPattern.hint = "N" then
        .ok ⟨cm.rows, cm.cols, cm.data.mapIdx fun k v => A.divQ v (((k / cm.cols : Nat) : ℚ) + 1)⟩
      else if d.stepPattern.hint = "N+M" then
        .ok ⟨cm.rows, cm.cols, cm.data.mapIdx fun k v =>
          A.divQ v (((k / cm.cols : Nat) : ℚ) + ((k % cm.cols : Nat) : ℚ) + 2)⟩
      else if d.stepPattern.hint = "M" then
        .ok ⟨cm.rows, cm.cols, cm.data.mapIdx fun k v => A.divQ v (((k % cm.cols : Nat) : ℚ) + 1)⟩
      else .ok cm
    else .ok cm

/-- dtwPlot.py:321-403 `dtwPlotDensity`. -/
def plotDensity (A : Arith) (d : Result) (o : PlotOpts) : Except Err Drawing := do
  let cm ← densityMatrix A d o.normalize
  match d.mapping with
  | none => .error .attributeError
  | some mp => .ok { curve := mp.index1.zip mp.index2, image := some cm }

/-- dtwPlot.py:24-76 `dtwPlot`, also the method `DTW.plot` (dtw.py:82-124). -/
def dtwPlot (A : Arith) (d : Result) (type : String := "alignment") (o : PlotOpts := {}) : Except Err Drawing :=
  if type = "alignment" then plotAlignment d
  else if type = "twoway" then plotTwoWay A d o
  else if type = "threeway" then plotThreeWay A d o
  else if type = "density" then plotDensity A d o
  else .error (.valueError "Unknown plot type: ")

/-! ### StepPattern.plot -/

/-- What `StepPattern.plot` draws for one rule: the polyline through the (negated) rows of the rule, and the
weight labels half way between consecutive rows. -/
structure RuleDrawing where
  line : List (Int × Int)
  labels : List ((ℚ × ℚ) × ℚ)

/-- stepPattern.py:341-355: rows of one rule; a label at the mid-point of each pair of consecutive rows, with
the weight of the second. -/
def ruleDrawing (rows : List Step) : RuleDrawing where
  line := rows.map fun s => (-s.di, -s.dj)
  labels := (rows.zip rows.tail).map fun p =>
    ((-(((p.1.di : ℚ) + p.2.di) / 2), -(((p.1.dj : ℚ) + p.2.dj) / 2)), p.2.w)

/-- stepPattern.py:328-360 `StepPattern.plot`: one drawing per rule, and the filled end points. -/
def patternPlot (p : StepPattern) : Except Err (List RuleDrawing × List (Int × Int)) := do
  let np ← p.getNPatterns
  .ok ((List.range np.toNat).map fun (k : Nat) => ruleDrawing (p.mx.filter fun s => s.pid = (k : Int) + 1),
    (p.mx.filter fun s => s.w = -1).map fun s => (-s.di, -s.dj))

end DTW

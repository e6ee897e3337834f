import Verif.Num
import Verif.Err

/-!
# Step patterns (dtw/stepPattern.py, dtw/mvm.py)

A `StepPattern` object is its matrix `mx` (rows: rule id, query delta, reference delta, weight or -1) and
its normalisation hint.  SIMPLIFICATION: the first three columns are integers (they are stored as doubles
but every constructor of the package supplies integers, and every consumer truncates them to ints);
weights are rationals, i.e. finite.
-/

namespace DTW

/-- One row of `StepPattern.mx` (stepPattern.py:545-551: "First column: enumerates step patterns.  Second:
step in query index.  Third: step in reference index.  Fourth: weight if positive, or -1 if starting
point"). -/
structure Step where
  pid : Int
  di : Int
  dj : Int
  w : ℚ
  deriving DecidableEq, Repr

/-- stepPattern.py:28,274-276: class `StepPattern` with attributes `mx` and `hint`. -/
structure StepPattern where
  mx : List Step
  hint : String
  deriving DecidableEq, Repr

/-- C `(int)x` and numpy `astype(int)` on a finite value: truncation toward zero
(dtw_core.c:128-130, stepPattern.py:369). -/
def trunc (q : ℚ) : Int := Int.tdiv q.num q.den

namespace StepPattern

/-- stepPattern.py:278-280 `get_n_rows`. -/
def getNRows (p : StepPattern) : Nat := p.mx.length

/-- stepPattern.py:282-284 `get_n_patterns`: `int(numpy.max(self.mx[:,0]))`; `numpy.max` of an empty
column raises ValueError. -/
def getNPatterns (p : StepPattern) : Except Err Int :=
  match p.mx with
  | [] => .error (.valueError "zero-size array to reduction operation")
  | s :: ss => .ok (ss.foldl (fun a t => max a t.pid) s.pid)

/-- stepPattern.py:286-296 `T`: exchange columns 1 and 2, exchange hints `N` and `M`. -/
def T (p : StepPattern) : StepPattern where
  mx := p.mx.map fun s => ⟨s.pid, s.dj, s.di, s.w⟩
  hint := if p.hint = "N" then "M" else if p.hint = "M" then "N" else p.hint

/-- stepPattern.py:362-366 `_extractpattern`: rows of rule `sn` (without the id column), flipped. -/
def extractPattern (p : StepPattern) (sn : Int) : List Step :=
  (p.mx.filter fun s => s.pid = sn).reverse

/-- stepPattern.py:368-372 `_mkDirDeltas`: the whole matrix is cast to int32 (truncating the weights), the
rows whose weight is then -1 are kept, and columns 1, 2 returned. -/
def mkDirDeltas (p : StepPattern) : List (Int × Int) :=
  (p.mx.filter fun s => trunc s.w = -1).map fun s => (s.di, s.dj)

/-- stepPattern.py:374-377 `_get_p`: columns `[0,2,1,3]` transposed and flattened, i.e. all ids, then all
reference deltas, then all query deltas, then all weights. -/
def getP (p : StepPattern) : List ℚ :=
  p.mx.map (fun s => (s.pid : ℚ)) ++ p.mx.map (fun s => (s.dj : ℚ)) ++
  p.mx.map (fun s => (s.di : ℚ)) ++ p.mx.map (fun s => s.w)

/-- One term of the printed recursion (stepPattern.py:308-320): `g[i-di,j-dj]` when the weight is -1,
`+ cc * d[i-di,j-dj]` otherwise.  The text itself (padding, `{cc:2.2g}`) is `StepPattern.text` in
`Verif/Format.lean`. -/
inductive Printed where
  | g (di dj : Int)
  | d (cc : ℚ) (di dj : Int)
  deriving DecidableEq, Repr

/-- stepPattern.py:298-326 `__str__`: for `p` in `1..np`, the rows of `_extractpattern(p)` flipped again,
each printed as a `g[..]` or a `d[..]` term; and the hint. -/
def str (p : StepPattern) : Except Err (List (List Printed) × String) := do
  let np ← p.getNPatterns
  let body := (List.range np.toNat).map fun (k : Nat) =>
    (p.extractPattern ((k : Int) + 1)).reverse.map fun s =>
      if s.w = -1 then Printed.g s.di s.dj else Printed.d s.w s.di s.dj
  .ok (body, p.hint)

end StepPattern

/-! ### Rabiner-Juang constructor -/

/-- numpy `cumsum`. -/
def cumsum : Int → List Int → List Int
  | _, [] => []
  | acc, x :: xs => (acc + x) :: cumsum (acc + x) xs

/-- numpy `max` of a list that is known to be non-empty (`_P` lists start with 0). -/
def listMax (x : Int) (xs : List Int) : Int := xs.foldl max x

/-- stepPattern.py:400-443 class `_P`: `_P(pid,subtype,smoothing).step(..)...get()`; the argument `steps`
lists the `.step(di,dj)` calls.  `w[1:] = mean(w[1:])` when smoothing, `w[0] = -1`. -/
def pGet (pid : Int) (subtype : String) (smoothing : Bool) (steps : List (Int × Int)) :
    Except Err (List Step) := do
  let ia : List Int := 0 :: steps.map Prod.fst
  let ja : List Int := 0 :: steps.map Prod.snd
  let si := cumsum 0 ia
  let sj := cumsum 0 ja
  let ni := si.map fun x => listMax 0 si - x
  let nj := sj.map fun x => listMax 0 sj - x
  let w : List ℚ ←
    if subtype = "a" then .ok ((ia.zip ja).map fun p => ((min p.1 p.2 : Int) : ℚ))
    else if subtype = "b" then .ok ((ia.zip ja).map fun p => ((max p.1 p.2 : Int) : ℚ))
    else if subtype = "c" then .ok (ia.map fun (x : Int) => (x : ℚ))
    else if subtype = "d" then .ok ((ia.zip ja).map fun p => ((p.1 + p.2 : Int) : ℚ))
    else .error (.valueError "Unsupported subtype")
  let wt := w.tail
  let wt' := if smoothing then wt.map (fun _ => wt.foldl (· + ·) 0 / (wt.length : ℚ)) else wt
  let w' := (-1 : ℚ) :: wt'
  .ok (((ni.zip nj).zip w').map fun r => ⟨pid, r.1.1, r.1.2, r.2⟩)

/-- stepPattern.py:472-531 `_RJtypeI` ... `_RJtypeVII`: the `.step` chains of every rule. -/
def rjSteps : Int → Option (List (List (Int × Int)))
  | 1 => some [[(1,0)], [(1,1)], [(0,1)]]
  | 2 => some [[(1,1),(1,0)], [(1,1)], [(1,1),(0,1)]]
  | 3 => some [[(2,1)], [(1,1)], [(1,2)]]
  | 4 => some [[(1,1),(1,0)], [(1,2),(1,0)], [(1,1)], [(1,2)]]
  | 5 => some [[(1,1),(1,0),(1,0)], [(1,1),(1,0)], [(1,1)], [(1,1),(0,1)], [(1,1),(0,1),(0,1)]]
  | 6 => some [[(1,1),(1,1),(1,0)], [(1,1)], [(1,1),(1,1),(0,1)]]
  | 7 => some [[(1,1),(1,0),(1,0)], [(1,2),(1,0),(1,0)], [(1,3),(1,0),(1,0)],
               [(1,1),(1,0)], [(1,2),(1,0)], [(1,3),(1,0)],
               [(1,1)], [(1,2)], [(1,3)]]
  | _ => none

/-- The vstack of the `_P(k,s,m)....get()` blocks, `k = 1, 2, ...` (stepPattern.py:473 etc.). -/
def pStack (subtype : String) (smoothing : Bool) : Int → List (List (Int × Int)) →
    Except Err (List Step)
  | _, [] => .ok []
  | k, c :: cs => do
    let a ← pGet k subtype smoothing c
    let b ← pStack subtype smoothing (k + 1) cs
    .ok (a ++ b)

/-- stepPattern.py:446-469 `rabinerJuangStepPattern`.  An unknown `ptype` selects
`lambda: _error("Invalid type")`, which is then called with two arguments: a TypeError. -/
def rabinerJuang (ptype : Int) (slopeWeighting : String := "d") (smoothed : Bool := false) :
    Except Err StepPattern := do
  match rjSteps ptype with
  | none => .error .typeError
  | some cs =>
    let r ← pStack slopeWeighting smoothed 1 cs
    let norm := if slopeWeighting = "c" then "N" else if slopeWeighting = "d" then "N+M" else "NA"
    .ok ⟨r, norm⟩

/-- mvm.py:102-111 `mvmStepPattern(elasticity)`: for `k = 1..elasticity` the rows `(k, 1, k, -1)` and
`(k, 0, 0, 1)` (`pn = repeat(arange(size)+1, 2)`, `dx = tile([1,0])`, `dy = pn*dx`, `w = tile([-1,1])`);
hint "N". -/
def mvmStepPattern (elasticity : Nat) : StepPattern where
  mx := (List.range elasticity).flatMap fun (k : Nat) =>
    [⟨(k : Int) + 1, 1, ((k : Int) + 1) * 1, -1⟩, ⟨(k : Int) + 1, 0, ((k : Int) + 1) * 0, 1⟩]
  hint := "N"

end DTW

import Verif.Dtw
import Verif.NpSum

/-!
# countPaths.py
-/

namespace DTW
open F64

/-- numpy assignment `M[i,j] = v`: negative indices count from the end, others out of range raise
IndexError. -/
def Mat.pySet {α} (M : Mat α) (i j : Int) (v : α) : Except Err (Mat α) :=
  let i' := if i < 0 then i + M.rows else i
  let j' := if j < 0 then j + M.cols else j
  if 0 ≤ i' ∧ i' < M.rows ∧ 0 ≤ j' ∧ j' < M.cols then
    .ok ⟨M.rows, M.cols, M.data.set (i'.toNat * M.cols + j'.toNat) v⟩
  else .error .indexError

/-- countPaths.py:67-72: the initial matrix: NaN, with `m[0,:] = 1.0` (open begin) or `m[0,0] = 1.0`. -/
def countInit (n m : Nat) (openBegin : Bool) : Except Err (Mat F64) :=
  if openBegin then
    if n = 0 then .error .indexError
    else .ok (Mat.ofFn n m fun i _ => if i = 0 then fin 1 else nan)
  else (Mat.ofFn n m fun _ _ => nan).pySet 0 0 (fin 1)

/-- countPaths.py:94-99: rule `k` adds the count of its origin, when that lies inside the matrix;
`deltas[k,0]` out of range is an IndexError. -/
def countTerm (A : Arith) (deltas : List (Int × Int)) (cm : Mat F64) (ii jj : Int) (np : F64) (k : Nat) :
    Except Err F64 :=
  match deltas[k]? with
  | none => .error .indexError
  | some d =>
    if 0 ≤ ii - d.1 ∧ 0 ≤ jj - d.2 then do
      let x ← cm.pyGet (ii - d.1) (jj - d.2)
      .ok (A.add np x)
    else .ok np

/-- countPaths.py:93-99: `np` summed over the rules `k < npats`. -/
def countSum (A : Arith) (deltas : List (Int × Int)) (npats : Int) (cm : Mat F64) (ii jj : Int) :
    Except Err F64 :=
  (List.range npats.toNat).foldlM (countTerm A deltas cm ii jj) (fin 0)

/-- countPaths.py:83-101: body of the double loop. -/
def countCell (A : Arith) (n m : Nat) (wf : WinFn) (args : WinArgs) (deltas : List (Int × Int)) (npats : Int)
    (cm : Mat F64) (ii jj : Nat) : Except Err (Mat F64) := do
  let v ← cm.pyGet ii jj
  if isFinite v then .ok cm
  else
    let w ← wf.call args n m ii jj
    if w = false then cm.pySet ii jj (fin 0)
    else
      let np ← countSum A deltas npats cm ii jj
      cm.pySet ii jj np

/-- countPaths.py:65-104: the matrix that `countPaths(d, debug=True)` returns. -/
def countMatrix (A : Arith) (d : Result) : Except Err (Mat F64) := do
  let cm ← countInit d.N d.M d.openBegin
  let npats ← d.stepPattern.getNPatterns
  let deltas := d.stepPattern.mkDirDeltas
  (List.range d.N).foldlM (fun cm (ii : Nat) =>
    (List.range d.M).foldlM (fun cm (jj : Nat) =>
      countCell A d.N d.M d.windowFunction d.windowArgs deltas npats cm ii jj) cm) cm

/-- Python `int(x)` of a float: ValueError for NaN, OverflowError for an infinity, else truncation. -/
def pyInt : F64 → Except Err Int
  | nan => .error (.valueError "cannot convert float NaN to integer")
  | fin q => .ok (trunc q)
  | _ => .error .overflowError

/-- countPaths.py:106-110 (`countPaths(d)`). -/
def countPaths (A : Arith) (d : Result) : Except Err Int := do
  let cm ← countMatrix A d
  let r ← if d.openEnd then .ok (npSum A (cm.row (cm.rows - 1))) else cm.pyGet (-1) (-1)
  pyInt r

end DTW

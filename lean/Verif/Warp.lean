import Verif.Dtw
import Mathlib.Data.List.Sort
import Verif.NpSum

/-!
# warp.py and warpArea.py, with the parts of numpy/scipy they rely on
-/

namespace DTW
open F64

/-- Which implementation `scipy.interpolate.interp1d(kind="linear")` delegates to for integer abscissae:
`numpy.interp` (current scipy) or its own `_call_linear` (older scipy).  External code; both are modelled. -/
inductive InterpImpl where
  | numpy
  | scipyLinear
  deriving DecidableEq, Repr

/-- Subtraction of doubles. -/
def Arith.sub (A : Arith) (x y : F64) : F64 := A.add x y.neg

/-- The straight line through `(x0,y0)` and `(x1,y1)` evaluated at `x`, as both implementations do:
`(y1-y0)/(x1-x0) * (x-x0) + y0`. -/
def lineAt (A : Arith) (x0 : Int) (y0 : F64) (x1 : Int) (y1 : F64) (x : Int) : F64 :=
  A.add (A.mul (A.divQ (A.sub y1 y0) ((x1 : ℚ) - x0)) (fin ((x : ℚ) - x0))) y0

/-- `numpy.interp` at one abscissa not below the first (external; compiled_base.c `arr_interp`): with `j`
the largest index such that `xp[j] ≤ x`: the value there if `j` is the last index or `xp[j] = x`, otherwise
the line to the next point. -/
def npInterp (A : Arith) : List (Int × F64) → Int → F64
  | [], _ => nan
  | [p], _ => p.2
  | p :: q :: l, x =>
    if q.1 ≤ x then npInterp A (q :: l) x
    else if p.1 = x then p.2
    else lineAt A p.1 p.2 q.1 q.2 x

/-- `scipy.interpolate.interp1d._call_linear` at one abscissa (external): `searchsorted` from the left,
clipped to `[1, len-1]`, and the line through that point and its predecessor.  With a single point numpy's
index -1 is the point itself. -/
def scipyLinear (A : Arith) (l : List (Int × F64)) (x : Int) : F64 :=
  let s := (l.takeWhile fun p => p.1 < x).length
  let hi := min (max s 1) (l.length - 1)
  let lo := if hi = 0 then l.length - 1 else hi - 1
  match l[lo]?, l[hi]? with
  | some p, some q => lineAt A p.1 p.2 q.1 q.2 x
  | _, _ => nan

/-- The interpolant built by `interp1d(x, y)` evaluated at `x`: points are sorted by abscissa (stably);
an abscissa outside the range of the points is a ValueError, and so are no points at all or different
lengths of `x` and `y`. -/
def interp1d (A : Arith) (impl : InterpImpl) (pts : List (Int × F64)) (x : Int) : Except Err F64 :=
  let l := pts.insertionSort fun p q => p.1 ≤ q.1
  match l.head?, l.getLast? with
  | some p, some q =>
    if x < p.1 ∨ q.1 < x then .error (.valueError "A value in x_new is outside the interpolation range.")
    else .ok (match impl with
      | .numpy => npInterp A l x
      | .scipyLinear => scipyLinear A l x)
  | _, _ => .error (.valueError "x and y arrays must have at least one entry")

/-- `numpy.max` of an index array; ValueError if it is empty. -/
def npMax : List Int → Except Err Int
  | [] => .error (.valueError "zero-size array to reduction operation maximum which has no identity")
  | x :: xs => .ok (xs.foldl max x)

/-- `numpy.bincount(x)`: the number of occurrences of each `k < len` (`len` is the maximum plus one). -/
def bincount (len : Nat) (xs : List Int) : List Nat :=
  xs.foldl (fun bins x => bins.modify x.toNat (· + 1)) (List.replicate len 0)

/-- `numpy.bincount(x, y)`: the sum of the weights of each `k < len`, accumulated in double precision. -/
def bincountW (A : Arith) (len : Nat) (xw : List (Int × F64)) : List F64 :=
  xw.foldl (fun bins p => bins.modify p.1.toNat (A.add · p.2)) (List.replicate len (fin 0))

/-- warp.py:27-30 `_solveTies`: abscissae `0..max`, ordinates `s/n` (NaN, with a warning, where `n = 0`).
`bincount` rejects negative values; different lengths are a ValueError. -/
def solveTies (A : Arith) (xs ys : List Int) : Except Err (List (Int × F64)) := do
  if xs.any (· < 0) then .error (.valueError "'list' argument must have no negative elements")
  else if xs.length ≠ ys.length then .error (.valueError "The weights and list don't have the same length.")
  else
    let len := (xs.foldl max (-1) + 1).toNat
    let n := bincount len xs
    let s := bincountW A len (xs.zip (ys.map fun (y : Int) => fin (y : ℚ)))
    .ok ((List.range len).map fun (k : Nat) => ((k : Int), A.divQ (s[k]?.getD nan) ((n[k]?.getD 0 : Nat) : ℚ)))

/-- Casting a double to int64 (`astype(int)`): truncation; NaN and infinities give the minimal int64 on
x86-64 (undefined in C, numpy warns).  SIMPLIFICATION: finite values beyond the int64 range are not wrapped. -/
def castInt : F64 → Int
  | fin q => trunc q
  | _ => -9223372036854775808

/-- warp.py:119-121 and warpArea.py:92-93: if the first value is NaN, every NaN is replaced by the first
element of the index array. -/
def nanFix (ii : List F64) (first : Option Int) : Except Err (List F64) :=
  match ii with
  | [] => .error .indexError
  | v :: _ =>
    if isNan v then
      match first with
      | none => .error .indexError
      | some i0 => .ok (ii.map fun x => if isNan x then fin (i0 : ℚ) else x)
    else .ok ii

/-- warp.py:104-122 `warp(d, index_reference)`.  Without a mapping (`distance_only`) the attribute access
fails. -/
def warp (A : Arith) (impl : InterpImpl) (d : Result) (indexReference : Bool) : Except Err (List Int) := do
  match d.mapping with
  | none => .error .attributeError
  | some mp =>
    let iset := if indexReference then mp.index2 else mp.index1
    let jset := if indexReference then mp.index1 else mp.index2
    let jmax ← npMax jset
    let pts ← solveTies A jset iset
    let ii ← (List.range (jmax + 1).toNat).mapM fun (k : Nat) => interp1d A impl pts k
    let fixed ← nanFix ii iset.head?
    .ok (fixed.map castInt)

/-- Absolute value of a double. -/
def F64.abs : F64 → F64
  | nan => nan
  | fin q => fin |q|
  | _ => pinf

/-- `numpy.linspace(0, M-1, num=N)` at position `i < N`: `i * ((M-1)/(N-1))`, with the last point set to
`M-1`; a single point is 0. -/
def linspaceAt (A : Arith) (M N i : Nat) : F64 :=
  if N ≤ 1 then fin 0
  else if i = N - 1 then A.rnd ((M : ℚ) - 1)
  else A.mul (fin (i : ℚ)) (A.divQ (fin ((M : ℚ) - 1)) ((N : ℚ) - 1))

/-- warpArea.py:88-98 `warpArea(d)`. -/
def warpArea (A : Arith) (impl : InterpImpl) (d : Result) : Except Err F64 := do
  match d.mapping with
  | none => .error .attributeError
  | some mp =>
    if mp.index1.length ≠ mp.index2.length then
      .error (.valueError "x and y arrays must be equal in length along interpolation axis.")
    else
      let pts := mp.index1.zip (mp.index2.map fun (y : Int) => fin (y : ℚ))
      let ii ← (List.range d.N).mapM fun (k : Nat) => interp1d A impl pts k
      let fixed ← nanFix ii mp.index2.head?
      let ad := fixed.mapIdx fun i v => F64.abs (A.sub v (linspaceAt A d.M d.N i))
      .ok (npSum A ad)

end DTW

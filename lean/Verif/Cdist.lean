import Verif.Binary64
import Verif.Dtw
import Mathlib.Data.Nat.Sqrt

/-!
# The metrics "euclidean" (the default), "sqeuclidean", "cityblock" and "chebyshev" of scipy's cdist

`scipy.spatial.distance.cdist(x, y, metric=dist_method)` (dtw.py:399).  External code, transcribed from scipy
(spatial/src/distance_metrics.h, `transform_reduce_2d_`): the terms are accumulated from left to right, starting with 0, in
doubles; `sqrt` is IEEE-754's, correctly rounded.  All other metrics remain arbitrary functions (`Args.dist`).
-/

namespace DTW
open F64

/-- The exponent of the last place of the square root of `q > 0`. -/
def sqrtExp (q : ℚ) : ℤ := Int.log 2 q / 2 - 52

/-- `q` in units of the square of that last place. -/
def sqrtUlps (q : ℚ) : ℚ := q / 2 ^ (2 * sqrtExp q)

/-- The integer nearest to the square root of a number. -/
def nearSqrt (y : ℚ) : ℕ :=
  if ((2 * Nat.sqrt ⌊y⌋₊ + 1 : ℕ) : ℚ) ^ 2 < 4 * y then Nat.sqrt ⌊y⌋₊ + 1 else Nat.sqrt ⌊y⌋₊

/-- The square root of a positive number, rounded to 53 significant bits. -/
def sqrtPos (q : ℚ) : ℚ := nearSqrt (sqrtUlps q) * 2 ^ sqrtExp q

/-- C `sqrt` on doubles. -/
def sqrt64 : F64 → F64
  | fin q => if 0 < q then fin (sqrtPos q) else if q = 0 then fin 0 else nan
  | pinf => pinf
  | _ => nan

/-- C `fabs`. -/
def fabs : F64 → F64
  | fin q => fin |q|
  | ninf => pinf
  | x => x

/-- `fabs(x - y)`. -/
def absSub (A : Arith) (u v : F64) : F64 := fabs (A.add u v.neg)

/-- The accumulation `acc = reduce(acc, map(x, y))` over the columns.  `cdist` (Dtw.lean) compares only rows of the same
length; the value for others is never used. -/
def accumulate (step : F64 → F64 → F64 → F64) (x y : List F64) : F64 :=
  if x.length = y.length then (x.zip y).foldl (fun acc p => step acc p.1 p.2) (fin 0) else nan

/-- distance_metrics.h `SquareEuclideanDistance`: `acc += d*d`. -/
def sqEuclidean (A : Arith) : List F64 → List F64 → F64 :=
  accumulate fun acc u v => A.mac acc (absSub A u v) (absSub A u v)

/-- distance_metrics.h `EuclideanDistance`. -/
def euclidean (A : Arith) (x y : List F64) : F64 := sqrt64 (sqEuclidean A x y)

/-- distance_metrics.h `CityBlockDistance`. -/
def cityblock (A : Arith) : List F64 → List F64 → F64 := accumulate fun acc u v => A.add acc (absSub A u v)

/-- distance_metrics.h `ChebyshevDistance`: `std::max(acc, |x - y|)`, that is `acc < d ? d : acc`: a NaN difference is skipped. -/
def chebyshev (A : Arith) : List F64 → List F64 → F64 :=
  accumulate fun acc u v => if F64.lt acc (absSub A u v) then absSub A u v else acc

/-- scipy/spatial/distance.py, `_METRIC_INFOS`: names of the four metrics, in any case (`none`: another metric or an unknown
name). -/
def metricOf (A : Arith) (name : String) : Option (List F64 → List F64 → F64) :=
  let s := name.toLower
  if s ∈ ["euclidean", "euclid", "eu", "e"] then some (euclidean A)
  else if s ∈ ["sqeuclidean", "sqe", "sqeuclid"] then some (sqEuclidean A)
  else if s ∈ ["cityblock", "cblock", "cb", "c"] then some (cityblock A)
  else if s ∈ ["chebychev", "chebyshev", "cheby", "cheb", "ch"] then some (chebyshev A)
  else none

end DTW

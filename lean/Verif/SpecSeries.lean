import Verif.Dtw

/-!
# One-dimensional series: the vocabulary of C63

`dtw(x, y, …)` for two one-dimensional series, with the local cost `|x_i - y_j|` (in one dimension `cdist`'s
"euclidean", the default, "cityblock", "chebyshev" and "minkowski" all are that function, in exact arithmetic).
-/

namespace DTW
open F64

/-- The distance of two rows of one element each: the absolute difference (what `cdist` evaluates, dtw.py:399). -/
def absDiff : List F64 → List F64 → F64
  | [fin u], [fin v] => fin |u - v|
  | _, _ => nan

/-- The call `dtw(x, y, …)` with the options of `o` (step pattern, window, open ends, …). -/
def ask (o : Args) (x y : List ℚ) : Args :=
  { o with
    x := .d1 (x.map fin)
    y := some (.d1 (y.map fin))
    dist := absDiff }

/-- `|x_i - y_j|`. -/
def gap (x y : List ℚ) (i j : Nat) : ℚ := |x.getD i 0 - y.getD j 0|

/-- The series with consecutive repetitions removed. -/
def squash : List ℚ → List ℚ
  | [] => []
  | [u] => [u]
  | u :: v :: l => if u = v then squash (v :: l) else u :: squash (v :: l)

/-- How far `v` is outside the interval `[lo, hi]`. -/
def outside (lo hi v : ℚ) : ℚ := max 0 (max (v - hi) (lo - v))

end DTW

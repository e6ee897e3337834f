import Verif.Num

/-!
# numpy.sum of a contiguous float64 vector

`numpy.sum(v)` (warpArea.py:98, countPaths.py:107) is `0 + pairwise_sum(v)`, with numpy's
`DOUBLE_pairwise_sum` (numpy/core/src/umath/loops_utils.h.src): fewer than 8 elements are added from left to right, up to
128 in eight interleaved accumulators, more by halving (the first part a multiple of 8 long).  External code,
transcribed from numpy's source.
-/

namespace DTW
open F64

/-- The loop over groups of eight: accumulator `k` receives the elements `8 * i + k`.  Returns the accumulators and the
fewer than eight elements left. -/
def sumLanes (A : Arith) : Nat → List F64 → List F64 → List F64 × List F64
  | 0, r, l => (r, l)
  | fuel + 1, r, l =>
    if l.length < 8 then (r, l) else sumLanes A fuel (r.zipWith A.add (l.take 8)) (l.drop 8)

/-- `((r[0] + r[1]) + (r[2] + r[3])) + ((r[4] + r[5]) + (r[6] + r[7]))`. -/
def sumEight (A : Arith) : List F64 → F64
  | [a, b, c, d, e, f, g, h] =>
    A.add (A.add (A.add a b) (A.add c d)) (A.add (A.add e f) (A.add g h))
  | l => l.foldl A.add (fin 0)

/-- Between 8 and 128 elements. -/
def sumBlock (A : Arith) (l : List F64) : F64 :=
  let s := sumLanes A l.length (l.take 8) (l.drop 8)
  s.2.foldl A.add (sumEight A s.1)

/-- `DOUBLE_pairwise_sum`; the first argument bounds the depth of the recursion (the length suffices). -/
def pairwiseSum (A : Arith) : Nat → List F64 → F64
  | 0, l => l.foldl A.add (fin 0)
  | fuel + 1, l =>
    if l.length < 8 then l.foldl A.add (fin 0)
    else if l.length ≤ 128 then sumBlock A l
    else
      let k := l.length / 2 - l.length / 2 % 8
      A.add (pairwiseSum A fuel (l.take k)) (pairwiseSum A fuel (l.drop k))

/-- `numpy.sum` of a float64 vector. -/
def npSum (A : Arith) (l : List F64) : F64 := A.add (fin 0) (pairwiseSum A l.length l)

end DTW

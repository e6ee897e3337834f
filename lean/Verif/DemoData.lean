import Verif.TextFile
import Verif.Binary64

/-!
# The demonstration data (dtw_test_data.py)
-/

namespace DTW
open F64

/-- dtw_test_data.py:81: `numpy.arange(n)/720.*1000.`, element `k`: a division and a multiplication of doubles (the whole
number `k` itself is converted exactly below 2^53). -/
def timestamp (k : ℕ) : F64 :=
  match rnd64 ((k : ℚ) / 720) with
  | fin q => rnd64 (q * 1000)
  | x => x

/-- `numpy.fromstring(text, sep="\n")` (numpy/core/src/multiarray/ctors.c): a separator made of whitespace stands for any
whitespace; numbers are read like Python's `float`.  `none`: a word is not a number (numpy then stops there; not modelled).
SIMPLIFICATION: the ASCII separators 28 to 31 count as whitespace, and `_` between digits is accepted. -/
def fromString (t : Txt) : Option (List F64) := (splitWords t).mapM (pyFloat (binary64 false))

/-- dtw_test_data.py:81-86, for one of the two files: `numpy.vstack([ts(a), a])`. -/
def aamiTable (t : Txt) : Option (List (List F64)) :=
  (fromString t).map fun a => [(List.range a.length).map timestamp, a]

/-- dtw_test_data.py:26-88 `aami()`: both tables.  The texts are the contents of data/aami3a.csv and data/aami3b.csv. -/
def aami (a3a a3b : Txt) : Option (List (List F64) × List (List F64)) :=
  match aamiTable a3a, aamiTable a3b with
  | some x, some y => some (x, y)
  | _, _ => none

/-- dtw_test_data.py:103: `numpy.linspace(0,6.28,num=100)`, element `k` (numpy/core/function_base.py: multiples of the step
`6.28/99`, the last element replaced by 6.28), in doubles. -/
def sinCosAt (k : ℕ) : F64 :=
  match rnd64 (628 / 100) with
  | fin stop =>
    if k = 99 then fin stop
    else match rnd64 (stop / 99) with
      | fin step => rnd64 (k * step)
      | x => x
  | x => x

/-- The abscissae of `sin_cos`. -/
def sinCosIndex : List F64 := (List.range 100).map sinCosAt

/-- dtw_test_data.py:92-107 `sin_cos()`.  `sin` and `cos` are numpy's functions, `noise` the 100 numbers drawn from
`numpy.random.uniform(0, 0.1, 100)`. -/
def sinCos (sin cos : F64 → F64) (noise : List F64) : List F64 × List F64 :=
  (List.zipWith (fun x u => (binary64 false).add (sin x) u) sinCosIndex noise, sinCosIndex.map cos)

end DTW

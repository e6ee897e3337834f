import Verif.Dtw

/-!
# The self-tests of the kernel

`_test_computeCM(TS)` (_dtw_utils.pyx:85-110), `_test_computeCM2(TS)` (_globalCostMatrix.py:46-70) and the C function
`test_computeCM` (dtw_core.c:287-330, `TS` = 5000): the same computation, without printing.
-/

namespace DTW
open F64

/-- `tdir`, _dtw_utils.pyx:99-100, _globalCostMatrix.py:60-61, dtw_core.c:293. -/
def selfTestDir : List ℚ := [1, 1, 2, 2, 3, 3, 0, 0, 1, 0, 1, 0, 1, 0, 1, 0, 0, 0, -1, 1, -1, 1, -1, 1]

/-- `tlm[i,j] = (i+1)*(j+1)`. -/
def selfTestCosts (TS : Nat) : Mat F64 := Mat.ofFn TS TS fun i j => fin (((i + 1) * (j + 1) : Nat) : ℚ)

/-- `_test_computeCM(TS)`, `_test_computeCM2(TS)`: `twm` is all ones, `tnstepsp` is 6, `tcm` is NaN but for
`tcm[0,0] = tlm[0,0]` (IndexError if `TS` is 0). -/
def selfTest (A : Arith) (TS : Nat) : Except Err (Mat F64 × Mat Int) := do
  let cm ← initialCM (selfTestCosts TS) none
  computeCMWrapper A (Mat.ofFn TS TS fun _ _ => (1 : Int)) (selfTestCosts TS) ⟨true, true⟩ 6 selfTestDir cm

end DTW

import Verif.Binary64
import Verif.Pattern

/-!
# What a `StepPattern` object holds

stepPattern.py:275 `self.mx = numpy.array(mx, dtype=numpy.double)`: the weights are stored as doubles.  `Pattern.lean` and
`Tables.lean` keep them as the rational numbers the source text denotes (`1/3`, `-1.001`).
-/

namespace DTW
open F64

/-- A finite number converted to a double (one that overflows is kept; no pattern has such a weight). -/
def storedWeight (w : ℚ) : ℚ :=
  match rnd64 w with
  | fin q => q
  | _ => w

/-- stepPattern.py:274-276: the object that is made of a table: its weights are doubles. -/
def StepPattern.stored (p : StepPattern) : StepPattern where
  mx := p.mx.map fun s => { s with w := storedWeight s.w }
  hint := p.hint

end DTW
